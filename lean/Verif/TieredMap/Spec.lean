import Verif.TieredMap.Model
/-! A finite map that remembers the order of insertion. -/
namespace Sparta.TieredMap

/-- the value stored under a key -/
def lookup {V : Type} (t : List (Nat × V)) (k : Nat) : Option (Nat × V) := t.find? (fun e => e.1 = k)

/-- store a value under a key: in place if the key is there, else at the end -/
def store {V : Type} (t : List (Nat × V)) (k : Nat) (v : V) : List (Nat × V) :=
  if (lookup t k).isSome then t.map (fun e => if e.1 = k then (k, v) else e) else t ++ [(k, v)]

/-- the number of digits in base `2 ^ b` that every key needs, at least one -/
def IsWidth (b : Nat) (keys : List Nat) (n : Nat) : Prop :=
  1 ≤ n ∧ (∀ k ∈ keys, k < 2 ^ (b * n)) ∧ (1 < n → ∃ k ∈ keys, 2 ^ (b * (n - 1)) ≤ k)

/-- the finite map -/
def specStep {V : Type} (zero : V) (t : List (Nat × V)) : Op V → List (Nat × V) × Out V
  | .write k v => (store t k v, .unit)
  | .read k =>
    match lookup t k with
    | some e => (t, .value (some e.2))
    | none => (t ++ [(k, zero)], .value (some zero))
  | .find k => (t, .pair (lookup t k))
  | .clear => ([], .unit)
  | .size => (t, .num t.length)
  | .iterate => (t, .values (t.map (·.2)))

/-- keys are 64-bit numbers -/
def legal {V : Type} (_ : List (Nat × V)) : Op V → Prop
  | .write k _ => k < 2 ^ 64
  | .read k => k < 2 ^ 64
  | .find k => k < 2 ^ 64
  | _ => True

end Sparta.TieredMap
