import Verif.Model.De

/-! # Specification: the integer types -/

namespace YamlSubset.Spec

/-- The number of bits of an integer type. -/
def bits : IntTy → Nat
  | .i8 | .u8 => 8
  | .i16 | .u16 => 16
  | .i32 | .u32 => 32
  | .i64 | .u64 => 64
  | .i128 | .u128 => 128

/-- `InRange k i`: the integer `i` is a value of the type `k`: in two's complement with `bits k` bits for the signed
types, a natural number of `bits k` bits for the unsigned types. -/
def InRange (k : IntTy) (i : Int) : Prop :=
  if k ∈ [IntTy.i8, .i16, .i32, .i64, .i128] then -2 ^ (bits k - 1) ≤ i ∧ i < 2 ^ (bits k - 1)
  else 0 ≤ i ∧ i < 2 ^ bits k

instance (k : IntTy) (i : Int) : Decidable (InRange k i) := by unfold InRange; infer_instance

end YamlSubset.Spec
