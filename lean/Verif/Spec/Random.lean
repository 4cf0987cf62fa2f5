import Verif.Spec.Encode

/-! What else is assumed of the external random generator in C86. -/
namespace Gosstrak

/-- A drawn value is below the bound it is asked for. -/
def Binutil.Below (x : Binutil) : Prop := ∀ i n m, 0 < m → binVal (x.randomBits i n m) < m

/-- a generator that keeps to the bound, for the concrete cases -/
def boundedBinutil : Binutil :=
  { sampleBinutil with
    randomBits := fun _ n m => (leftPad n (binStr (min (m - 1) (2 ^ n - 1)))).take n }

/-- the digits of the second field, for the schemes where it has all of them -/
def Scheme.refDigits (sc : Scheme) (cp : Str) : Nat :=
  match sc with
  | .sgtin => partitionFor cp + 1
  | .sscc => partitionFor cp + 5
  | .grai => partitionFor cp
  | .giai => partitionFor cp + 13

end Gosstrak
