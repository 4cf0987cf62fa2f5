import Verif.Model.Linked
import Verif.Model.Strings

/-! filtering/subscriptions.go:290-357 `makePatriciaSubset`, which nothing calls. -/
namespace Gosstrak

/-- filtering/subscriptions.go:316-337: the body of the loop over the keys for the common prefix `p` and
    the offset `cur`. The state is the map, the new subset `sbsub` and `superset`, which is nil at first;
    `none` is a nil dereference. -/
def patGroupStep (p : Str) (cur : Nat) (st : BSub × BSub × Option PSub) (fs : Str) :
    Option (BSub × BSub × Option PSub) :=
  if fs = p then
    match mapGet st.1 fs with
    | none => none
    | some x => some (mapDelete st.1 fs, st.2.1, some (.mk cur x.uri x.subset))
  else if hasPrefix fs p then
    match mapGet st.1 fs with
    | none => none
    | some x => some (mapDelete st.1 fs,
        mapSet st.2.1 (fs.drop p.length) (.mk (cur + p.length) x.uri x.subset), st.2.2)
  else some st

/-- filtering/subscriptions.go:309-315: the offset of the first key -/
def firstOffset (b : BSub) : Nat :=
  match mapKeys b with
  | [] => 0
  | k :: _ => match mapGet b k with
    | none => 0
    | some x => x.offset

/-- filtering/subscriptions.go:300-347: one round with the common prefix `p` -/
def patGroupRound (b : BSub) (p : Str) : Option BSub :=
  match (mapKeys b).foldlM (patGroupStep p (firstOffset b)) (b, [], none) with
  | none => none
  | some (b', sbsub, sup) =>
    match sup with
    | none => some (mapSet b' p (.mk (firstOffset b) [] sbsub))
    | some x => some (mapSet b' p (.mk x.offset x.uri sbsub))

/-- filtering/subscriptions.go:294-348: the loop, cut off (`none`) after `fuel` rounds;
    `C84_terminates` shows that this does not happen -/
def patGroupLoop : Nat → BSub → Option BSub
  | fuel, b =>
    if (findPartialLCP (mapKeys b)).2 < 1 then some b
    else match fuel with
      | 0 => none
      | fuel + 1 => match patGroupRound b (findPartialLCP (mapKeys b)).1 with
        | none => none
        | some b' => patGroupLoop fuel b'

/-- filtering/subscriptions.go:351-355: the subset of one key is linked; `m` bounds the depth -/
def linkUnder (m : Nat) (b : BSub) (fs : Str) : Option BSub :=
  match mapGet b fs with
  | none => none
  | some x =>
    if x.subset.length ≠ 0 then
      match link m x.subset with
      | none => none
      | some s => some (mapSet b fs (.mk x.offset x.uri s))
    else some b

/-- filtering/subscriptions.go:290-357 with bounds on the rounds and on the depth of `linkSubset` -/
def patSubset (rounds depth : Nat) (b : BSub) : Option BSub :=
  match patGroupLoop rounds b with
  | none => none
  | some b' => (mapKeys b').foldlM (linkUnder depth) b'

/-- filtering/subscriptions.go:290-357 `makePatriciaSubset` on the converted map -/
def makePatriciaSubset (b : FlatSubs) : Option BSub :=
  patSubset b.length (maxKeyLength b + 1) (ofFlat b)

end Gosstrak
