import Verif.Argos.Model
/-!
What a database holds and what a window of it is, without the files.
-/
namespace Sparta.Argos

/-- the transactions that were written -/
def recsOf : List Op → List Rec
  | [] => []
  | .record r :: ops => r :: recsOf ops
  | .index :: ops => recsOf ops

/-- those written before the index number `k`; all of them, if there are not that many indexes -/
def before : Nat → List Op → List Rec
  | _, [] => []
  | k, .record r :: ops => r :: before k ops
  | 0, .index :: _ => []
  | k + 1, .index :: ops => before k ops

def Rec.hdr : Rec → Hdr
  | .annot h _ => h
  | .inst h _ _ _ => h
  | .mem h _ _ => h
  | .pair h _ _ => h

/-- the transaction is left out because it is not in the window -/
def Rec.outside (start stop : Nat) : Rec → Bool
  | .annot h _ => decide (h.stop < start ∨ stop < h.start)
  | _ => false

/-- what the users of a database agree on: the kind of pairs of a location, the fields of a kind (name, size, is it a number, format),
the string for a value of a field, which is empty if there is none -/
structure Schema where
  kind : Nat → Nat
  shape : Nat → List (Text × Nat × Bool × Nat)
  label : Nat → Nat → Nat → Text

def Hdr.ok (h : Hdr) (type : Nat) : Prop :=
  h.start < 2 ^ 64 ∧ h.stop < 2 ^ 64 ∧ h.parent < 2 ^ 64 ∧ h.id < 2 ^ 64 ∧ h.display < 2 ^ 64 ∧ h.loc < 2 ^ 32 ∧ h.flags < 2 ^ 16 ∧
    h.proc < 2 ^ 16 ∧ h.flags % 8 = type

/-- a text that is one token of a line -/
def plainText (t : Text) : Prop := t ≠ [] ∧ 10 ∉ t ∧ 58 ∉ t

def Field.ok (S : Schema) (pid i : Nat) (f : Field) : Prop :=
  plainText f.name ∧
    (f.num = true → f.size ≤ 8 ∧ f.val < 256 ^ f.size ∧ f.str = S.label pid i f.val ∧ (f.str ≠ [] → plainText f.str)) ∧
    (f.num = false → f.str.length < 65536)

/-- the fields from the field `i` on -/
def fieldsOk (S : Schema) (pid : Nat) : Nat → List Field → Prop
  | _, [] => True
  | i, f :: fs => f.ok S pid i ∧ fieldsOk S pid (i + 1) fs

def Field.shape (f : Field) : Text × Nat × Bool × Nat := (f.name, if f.num then f.size else 0, f.num, f.fmt)

/-- the transaction has the type it says, its numbers fit, and it follows the agreement -/
def Rec.ok (S : Schema) : Rec → Prop
  | .annot h t => h.ok 1 ∧ t.length < 65536
  | .inst h op va ra => h.ok 2 ∧ op < 2 ^ 32 ∧ va < 2 ^ 64 ∧ ra < 2 ^ 64
  | .mem h va ra => h.ok 3 ∧ va < 2 ^ 64 ∧ ra < 2 ^ 64
  | .pair h pid fs => h.ok 4 ∧ pid = S.kind h.loc ∧ fs.map Field.shape = S.shape pid ∧ fieldsOk S pid 0 fs

/-- the value of a field that a user should get, and whether it is to be read as a number (or is nothing but a string) -/
def Field.value (f : Field) : Nat × Bool := if f.num then (f.val, f.str.isEmpty) else (2 ^ 64 - 1, true)

/-- the text of a field that a user should get -/
def Field.text (f : Field) : Text :=
  if f.num then (if f.str = [] then showNum f.fmt f.val else f.str) else f.str

/-- what the callback should get for a transaction -/
def Rec.shown : Rec → Shown
  | .annot h t => .annot h t
  | .inst h op va ra => .inst h op va ra
  | .mem h va ra => .mem h va ra
  | .pair h pid fs => .pair h (pairid :: fs.map (fun f => f.name)) (2 :: fs.map (fun f => if f.num then f.size else 0))
      (0 :: fs.map (fun f => f.fmt)) ((pid, false) :: fs.map Field.value) (dec pid :: fs.map Field.text)

/-- the transaction has a field with a string for its value -/
def Rec.labelled : Rec → Bool
  | .pair _ _ fs => fs.any (fun f => f.num && !f.str.isEmpty)
  | _ => false

/-- the number of bytes of the transactions -/
def size (rs : List Rec) : Nat := (rs.map (fun r => r.bytes.length)).sum

/-- as the collector writes: after `n + 1` indexes come transactions within `[n * H, (n + 1) * H]`, which are not empty; nothing
comes before the first index.  `n`: the indexes so far -/
def Timed (H : Nat) : Nat → List Op → Prop
  | _, [] => True
  | n, .index :: ops => Timed H (n + 1) ops
  | n, .record r :: ops => 0 < n ∧ (n - 1) * H ≤ r.hdr.start ∧ r.hdr.start < r.hdr.stop ∧ r.hdr.stop ≤ n * H ∧ Timed H n ops

end Sparta.Argos
