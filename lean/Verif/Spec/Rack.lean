import Verif.Spec.Shelf

/-!
A splay tree under additions, deletions and searches in any order, without nodes: a row of groups. The
filters of a group stand in order, each with its URI; they are looked for from the place of the group on. A
filter is behind another one of its group if it comes later and extends it.
-/
namespace Gosstrak

/-- a group of filters: its place in the tag, and the filters in order -/
abbrev Group := Nat × FlatSubs

/-- the groups in the order in which they are tried -/
abbrev Rack := List Group

/-- The filters in key order, with their URIs. -/
def inOrder (b : FlatSubs) : FlatSubs := (mapKeys b).map fun k => (k, uriOf b k)

/-- fresh: a group at the place 0 for every filter that extends no other one -/
def freshRack (b : FlatSubs) : Rack :=
  ((mapKeys b).filter fun k => parentOf b k = none).map fun k => (0, (inOrder b).filter fun e => k <+: e.1)

/-- the bits from the place of the group on end before the filter does, and agree with it -/
def CutBy (B R : Str) : Prop := B = [] ∨ (B <+: R ∧ B ≠ R)

instance (B R : Str) : Decidable (CutBy B R) := by unfold CutBy; infer_instance

/-- A search in a group whose tag has the bits `B` from the place `p` of the group on. `K` is the filter found
    last, `first` says that the next filter stands right behind it. The results: the URIs found; the
    filters that stay; the groups that are formed. A filter is found if it starts `B` and extends the one found
    last. If it does not stand right behind that one, it leaves with all that is behind it and forms a group
    at the place where the one found last ends. -/
def sift (B : Str) (p : Nat) : Str → Bool → FlatSubs → List Str × FlatSubs × Rack
  | _, _, [] => ([], [], [])
  | K, first, (R, u) :: L =>
    if K <+: R ∧ R <+: B then
      let q := sift B p R true L
      if first then (u :: q.1, (R, u) :: q.2.1, q.2.2)
      else (u :: q.1, q.2.1.dropWhile (fun e => R <+: e.1),
        (p + K.length, ((R, u) :: q.2.1.takeWhile (fun e => R <+: e.1)).map fun e => (e.1.drop K.length, e.2)) ::
          q.2.2)
    else
      let q := sift B p K false L
      (q.1, (R, u) :: q.2.1, q.2.2)

/-- The first group in which something is found: the URIs; the groups that stay in their order; those that go
    to the front. `first` says that the next group is the foremost one. `none` is a panic. -/
def Rack.find (bits : Str) : Bool → Rack → Option (List Str × Rack × Rack)
  | _, [] => some ([], [], [])
  | first, (p, L) :: r =>
    if ∃ e ∈ L, CutBy (bits.drop p) e.1 then none
    else
      let q := sift (bits.drop p) p [] true L
      if q.1 = [] then (Rack.find bits false r).map fun a => (a.1, (p, L) :: a.2.1, a.2.2)
      else if first then some (q.1, (p, q.2.1) :: r, q.2.2)
      else some (q.1, r, (p, q.2.1) :: q.2.2)

/-- a search: the URIs and the groups afterwards; `none` is a panic -/
def Rack.search (r : Rack) (id : List Byte) : Option (List Str × Rack) :=
  (Rack.find (bitsOf id) true r).map fun a => (a.1, a.2.2 ++ a.2.1)

/-- the foremost filter of the group starts `fs` -/
def Group.Takes (g : Group) (fs : Str) : Prop := ∃ e ∈ g.2.head?, e.1 <+: fs

instance (g : Group) (fs : Str) : Decidable (g.Takes fs) := by unfold Group.Takes; infer_instance

/-- An addition to a group: a filter that is there gets the URI; any other one becomes the last behind the
    longest filter that starts it. `K` is the longest one so far. -/
def put (fs uri : Str) : Str → FlatSubs → FlatSubs
  | _, [] => [(fs, uri)]
  | K, (R, v) :: L =>
    if ¬ K <+: R then (fs, uri) :: (R, v) :: L
    else if R = fs then (R, uri) :: L
    else if R <+: fs then (R, v) :: put fs uri R L
    else (R, v) :: put fs uri K L

/-- An addition: to the first group whose foremost filter starts it. If there is none, the filter forms a new
    last group, at the place of the one that was last. -/
def Rack.add (fs uri : Str) : Rack → Rack
  | [] => []
  | (p, L) :: r =>
    if Group.Takes (p, L) fs then (p, put fs uri [] L) :: r
    else if r = [] then [(p, L), (p, [(fs, uri)])]
    else (p, L) :: Rack.add fs uri r

/-- some filter of the list does not extend the first one -/
def Parted : FlatSubs → Prop
  | [] => False
  | e :: l => ∃ x ∈ l, ¬ e.1 <+: x.1

instance : (L : FlatSubs) → Decidable (Parted L)
  | [] => inferInstanceAs (Decidable False)
  | e :: l => inferInstanceAs (Decidable (∃ x ∈ l, ¬ e.1 <+: x.1))

/-- what is behind `fs` is not only the next filter and what is behind that one -/
def forked (fs : Str) (L : FlatSubs) : Prop :=
  Parted (((L.dropWhile fun e => e.1 ≠ fs).drop 1).takeWhile fun e => fs <+: e.1)

instance (fs : Str) (L : FlatSubs) : Decidable (forked fs L) := by unfold forked; infer_instance

/-- a deletion from a group: a forked filter stays, with the empty URI -/
def takeOut (fs : Str) (L : FlatSubs) : FlatSubs :=
  if forked fs L then L.map fun e => if e.1 = fs then (fs, []) else e
  else L.filter fun e => e.1 ≠ fs

/-- a deletion: from the first group whose foremost filter starts it; a group that is left empty goes -/
def Rack.remove (fs : Str) : Rack → Rack
  | [] => []
  | (p, L) :: r =>
    if Group.Takes (p, L) fs then (if takeOut fs L = [] then r else (p, takeOut fs L) :: r)
    else (p, L) :: Rack.remove fs r

/-- the only filter of all is not deleted -/
def Rack.delete (r : Rack) (fs : Str) : Rack := if Rack.remove fs r = [] then r else Rack.remove fs r

/-- a call of an engine; `none` is a panic -/
def Rack.call (mk : Encoder) (r : Rack) : SplayCall → Option Rack
  | .add s => some ((mapKeys (toByteSubscriptions mk s)).foldl
      (fun r fs => r.add fs (uriOf (toByteSubscriptions mk s) fs)) r)
  | .delete s => some ((mapKeys (toByteSubscriptions mk s)).foldl Rack.delete r)
  | .search id => (r.search id).map Prod.snd

/-- the filters that a call adds are bit strings -/
def BitCall (mk : Encoder) : SplayCall → Prop
  | .add s => ∀ k ∈ mapKeys (toByteSubscriptions mk s), IsBitStr k
  | _ => True

/-- the groups after calls on a fresh tree; `none` is a panic -/
def rackAfter (mk : Encoder) (sub : Subs) (cs : List SplayCall) : Option Rack :=
  cs.foldlM (Rack.call mk) (freshRack (toByteSubscriptions mk sub))

/-- where a new filter is put: the place of the first group whose foremost filter starts it, of the last group
    if there is none -/
def Rack.placeFor (fs : Str) : Rack → Nat
  | [] => 0
  | g :: r => if g.Takes fs ∨ r = [] then g.1 else Rack.placeFor fs r

/-- the URIs held -/
def Rack.uris (r : Rack) : List Str := r.flatMap fun g => g.2.map Prod.snd

end Gosstrak
