import Verif.CircularBuffer.Lemmas
/-! Properties C18 and C77: CircularBuffer. -/
namespace Sparta.CircularBuffer
variable {α : Type}

/-- the calls that append and erase but never insert -/
def Op.isInsert : Op α → Bool
  | .insert .. => true
  | _ => false

/-- C18/C77: for every capacity and every history within the contract, every result the client sees (contents,
sizes, exceptions, iterator validity, dereferenced values, comparisons) is that of the plain bounded list;
in particular nothing undefined happens. Missing: inserting into a full buffer, old past-the-end iterators, and
more than 2^32 window positions; the code is wrong in all three cases (theorems `_violated` below). -/
theorem C77_iterators_partial (n : Nat) (os : List (Op α))
    (hl : legalOps Spec.step Spec.legal (Spec.init α n) os) :
    (runOps step (World.init α n) os).2 = (runOps Spec.step (Spec.init α n) os).2 :=
  (runOps_simulation_legal step Spec.step Spec.legal Rep (fun w s o h hl => rep_step w s o h hl) _ _ (rep_init n) os hl).2

example : legalOps Spec.step Spec.legal (Spec.init Nat 2)
    [.push 1, .begin 0, .push 2, .deref 0, .push 3, .isValid 0, .begin 1, .inc 1, .deref 1, .erase 1, .get 0] := by decide +kernel

example : (runOps step (World.init Nat 2)
    [.push 1, .begin 0, .push 2, .deref 0, .push 3, .isValid 0, .begin 1, .inc 1, .deref 1, .erase 1, .get 0]).2 =
    [.done, .done, .done, .value 1, .done, .bool false, .done, .done, .value 3, .done, .value 2] := by decide +kernel

theorem spec_no_ub (s : Spec α) (o : Op α) : (s.step o).2 ≠ .ub := by
  have hr : ∀ v : Option α, resOf v ≠ .ub := by intro v; cases v <;> simp [resOf]
  have hc : ∀ f b (x y : Option Nat), (cmp f b x y : Res α) ≠ .ub := by
    intro f b x y; cases x <;> cases y <;> simp [cmp]
  cases o <;> simp only [Spec.step] <;> (try split) <;> (try split) <;> first | apply hr | apply hc | simp

/-- C77: within the contract no call has undefined behaviour -/
theorem C77_defined_partial (n : Nat) (os : List (Op α))
    (hl : legalOps Spec.step Spec.legal (Spec.init α n) os) : Res.ub ∉ (runOps step (World.init α n) os).2 := by
  rw [C77_iterators_partial n os hl]
  generalize Spec.init α n = s
  clear hl
  induction os generalizing s with
  | nil => simp [runOps]
  | cons o os ih =>
    simp only [runOps, List.mem_cons, not_or]
    exact ⟨fun e => spec_no_ub s o e.symm, ih _⟩

/-! ### contents -/

/-- the values in the buffer, oldest first -/
def Buf.contents (b : Buf α) : List α := b.data.map Node.data

/-- the last `n` elements of a list -/
def lastN (n : Nat) (l : List α) : List α := l.drop (l.length - n)

/-- what a circular buffer must hold after appends, in-place erasures (by position) and clears -/
inductive Edit (α : Type) where
  | append (v : α)
  | eraseAt (i : Nat)
  | clear

def Edit.apply (cap : Nat) (l : List α) : Edit α → List α
  | .append v => lastN cap (l ++ [v])
  | .eraseAt i => l.eraseIdx i
  | .clear => []

/-- the calls that perform an edit: erase moves an iterator from `begin()` to the position and erases there -/
def Edit.calls : Edit α → List (Op α)
  | .append v => [.push v]
  | .eraseAt i => .begin 0 :: (List.replicate i (.inc 0) ++ [.erase 0])
  | .clear => [.clear]

/-- positions exist when erased, and the 32 bit window is not exhausted -/
def editsOk (cap : Nat) : Nat → List α → List (Edit α) → Prop
  | used, _, [] => used < 2 ^ 32
  | used, l, .append v :: es => editsOk cap (used + 1) (lastN cap (l ++ [v])) es
  | used, l, .eraseAt i :: es => i < l.length ∧ editsOk cap (used + l.length) (l.eraseIdx i) es
  | used, _, .clear :: es => editsOk cap used [] es

theorem lastN_length (n : Nat) (l : List α) : (lastN n l).length ≤ n := by
  unfold lastN; rw [List.length_drop]; omega

theorem push_seq (s : Spec α) (v : α) (h : s.seq.length ≤ s.cap) : (s.push v).seq = lastN s.cap (s.seq ++ [v]) := by
  unfold Spec.push lastN
  rw [List.length_append, List.length_singleton]
  by_cases hc : s.seq.length = s.cap
  · rw [if_pos hc, show s.seq.length + 1 - s.cap = 1 by omega]; simp
  · rw [if_neg hc, show s.seq.length + 1 - s.cap = 0 by omega]; rfl

theorem push_cap (s : Spec α) (v : α) : (s.push v).cap = s.cap := by unfold Spec.push; split <;> rfl
theorem push_used (s : Spec α) (v : α) : (s.push v).used = s.used + 1 := by unfold Spec.push; split <;> rfl

theorem editsOk_used {cap used : Nat} {l : List α} {es : List (Edit α)} (h : editsOk cap used l es) : used < 2 ^ 32 := by
  induction es generalizing used l with
  | nil => exact h
  | cons e es ih =>
    cases e with
    | append v => have := ih (h : editsOk _ _ _ es); omega
    | eraseAt i => have := ih h.2; omega
    | clear => exact ih (h : editsOk _ _ _ es)

theorem legal_append {σ ο ρ : Type _} (st : σ → ο → σ × ρ) (lg : σ → ο → Prop) (s : σ) (a c : List ο) :
    legalOps st lg s (a ++ c) ↔ legalOps st lg s a ∧ legalOps st lg (runOps st s a).1 c := by
  induction a generalizing s with
  | nil => simp [legalOps, runOps]
  | cons o os ih => simp [legalOps, runOps, ih, and_assoc]

theorem walk (s : Spec α) (hu : s.used < 2 ^ 32) (k i : Nat) (hr : s.regs 0 = .elem i) (hk : i + k < s.seq.length) :
    legalOps Spec.step Spec.legal s (List.replicate k (.inc 0)) ∧
    ∃ R, (runOps Spec.step s (List.replicate k (.inc 0))).1 = { s with regs := R } ∧ R 0 = .elem (i + k) := by
  induction k generalizing s i with
  | zero => exact ⟨trivial, s.regs, rfl, hr⟩
  | succ k ih =>
    have e : (s.step (.inc 0)).1 = { s with regs := upd s.regs 0 (.elem (i + 1)) } := by
      simp only [Spec.step, Spec.next, hr, if_pos (show i + 1 < s.seq.length by omega)]
    obtain ⟨h1, R, h2, h3⟩ := ih { s with regs := upd s.regs 0 (.elem (i + 1)) } hu (i + 1) (by simp [upd])
      (by dsimp only; omega)
    refine ⟨⟨⟨hu, by simp [hr, SIter.usable]⟩, by rw [e]; exact h1⟩, R, ?_, ?_⟩
    · simp only [List.replicate_succ, runOps, e]; exact h2
    · rw [h3]; congr 1; omega

theorem edit_calls (s : Spec α) (es : List (Edit α)) (hc : s.seq.length ≤ s.cap)
    (h : editsOk s.cap s.used s.seq es) :
    legalOps Spec.step Spec.legal s (es.flatMap Edit.calls) ∧
    (runOps Spec.step s (es.flatMap Edit.calls)).1.seq = es.foldl (Edit.apply s.cap) s.seq := by
  induction es generalizing s with
  | nil => exact ⟨trivial, rfl⟩
  | cons e es ih =>
    have hu := editsOk_used h
    rw [List.flatMap_cons, legal_append, runOps_append]
    cases e with
    | append v =>
      have h : editsOk s.cap (s.used + 1) (lastN s.cap (s.seq ++ [v])) es := h
      have h1 := ih (s.push v) (by rw [push_seq s v hc, push_cap]; exact lastN_length ..)
        (by rw [push_seq s v hc, push_cap, push_used]; exact h)
      refine ⟨⟨⟨⟨hu, trivial⟩, trivial⟩, h1.1⟩, ?_⟩
      refine h1.2.trans ?_
      rw [push_seq s v hc, push_cap]; rfl
    | clear =>
      have h : editsOk s.cap s.used [] es := h
      have h1 := ih { s with seq := [], regs := fun r => (s.regs r).kill } (Nat.zero_le _) h
      exact ⟨⟨⟨⟨hu, trivial⟩, trivial⟩, h1.1⟩, h1.2⟩
    | eraseAt i =>
      obtain ⟨hi, h⟩ := h
      have e0 : (s.step (.begin 0)).1 = { s with regs := upd s.regs 0 (.elem 0) } := by
        simp only [Spec.step, Spec.first]
        rw [if_neg (by intro e; simp [e] at hi)]
      obtain ⟨w1, R, w2, w3⟩ := walk { s with regs := upd s.regs 0 (.elem 0) } hu i 0 (by simp [upd]) (by dsimp only; omega)
      have e1 : ({ s with regs := R } : Spec α).step (.erase 0) = (Spec.eraseAt { s with regs := R } i, .done) := by
        have : R 0 = .elem i := by rw [w3]; simp
        simp only [Spec.step, this]
      have hrun : (runOps Spec.step s (Edit.calls (.eraseAt i))).1 = Spec.eraseAt { s with regs := R } i := by
        simp only [Edit.calls, runOps, e0]
        rw [runOps_append, w2]
        simp only [runOps, e1]
      have h1 := ih (Spec.eraseAt { s with regs := R } i)
        (by simp only [Spec.eraseAt]; rw [List.length_eraseIdx_of_lt hi]; omega) h
      rw [hrun]
      refine ⟨⟨⟨⟨hu, trivial⟩, ?_⟩, h1.1⟩, h1.2⟩
      show legalOps Spec.step Spec.legal (s.step (.begin 0)).1 _
      rw [e0, legal_append]
      refine ⟨w1, ⟨?_, trivial⟩⟩
      rw [w2]
      exact ⟨hu, by show (R 0).usable; rw [w3]; simp [SIter.usable]⟩

/-- C18: after any history of appends, erasures and clears the buffer holds, in order, what the plain list
holds that keeps the last `cap` elements on every append. Missing: insert (see C18_insert_violated) and
histories that exhaust the 32 bit window (see C18_window_violated). -/
theorem C18_contents_partial (cap : Nat) (es : List (Edit α)) (h : editsOk cap 0 [] es) :
    (runOps step (World.init α cap) (es.flatMap Edit.calls)).1.buf.contents = es.foldl (Edit.apply cap) [] := by
  obtain ⟨h1, h2⟩ := edit_calls (Spec.init α cap) es (Nat.zero_le _) h
  have := (runOps_simulation_legal step Spec.step Spec.legal Rep (fun w s o h hl => rep_step w s o h hl) _ _
    (rep_init cap) _ h1).1.buf.dat
  exact this.trans h2

example : editsOk 2 0 [] [Edit.append 1, .append 2, .append 3, .eraseAt 0, .append 4, .append 5] ∧
    [Edit.append 1, .append 2, .append 3, .eraseAt 0, .append 4, .append 5].foldl (Edit.apply 2) [] = [4, 5] := by
  simp [editsOk, lastN, Edit.apply]

/-- the state reached by a history within the contract -/
theorem reach (cap : Nat) (os : List (Op α)) (hl : legalOps Spec.step Spec.legal (Spec.init α cap) os) :
    Rep (runOps step (World.init α cap) os).1 (runOps Spec.step (Spec.init α cap) os).1 :=
  (runOps_simulation_legal step Spec.step Spec.legal Rep (fun w s o h hl => rep_step w s o h hl) _ _ (rep_init cap) os hl).1

/-- C18: size() never exceeds the capacity within the contract, and agrees with the contents -/
theorem C18_size_partial (cap : Nat) (os : List (Op α)) (hl : legalOps Spec.step Spec.legal (Spec.init α cap) os) :
    (runOps step (World.init α cap) os).1.buf.numValid ≤ cap ∧
    (runOps step (World.init α cap) os).1.buf.numValid = (runOps step (World.init α cap) os).1.buf.contents.length := by
  have h := (reach cap os hl).buf
  have hcap : (runOps Spec.step (Spec.init α cap) os).1.cap = cap := by
    refine runOps_invariant Spec.step (fun s => s.cap = cap) ?_ _ rfl os
    intro s o h
    cases o <;> simp only [Spec.step, Spec.eraseAt] <;> (try split) <;> (try split) <;>
      first | exact h | exact (push_cap s _).trans h
  refine ⟨?_, by rw [h.num, Buf.contents, List.length_map]⟩
  have := h.le
  rw [hcap] at this
  rw [h.num]; exact this

/-! ### where the code breaks the property -/

theorem pushes_concrete (b : Buf α) (R : Nat → Iter) (v : α) (k : Nat)
    (hn : b.numValid = b.data.length) (hgt : b.maxSize < b.numValid) :
    (runOps step ⟨b, R⟩ (List.replicate k (.push v))).1.buf.numValid = b.numValid + k := by
  induction k generalizing b with
  | zero => rfl
  | succ k ih =>
    have e : b.pushBack v = .ok { b with data := b.data ++ [⟨b.fresh, v, b.endIdx⟩], endIdx := b.endIdx + 1, numValid := b.numValid + 1, fresh := b.fresh + 1 } := by
      unfold Buf.pushBack
      dsimp only
      rw [if_neg (show ¬ b.numValid = b.maxSize by omega)]
      simp [hn]
    simp only [List.replicate_succ, runOps, step, e, World.setBuf]
    rw [ih _ (by simp [hn]) (by dsimp only; omega)]
    dsimp only; omega

/-- state after `k ≤ cap` appends -/
theorem fill (cap : Nat) (v : α) (k : Nat) (hk : k ≤ cap) :
    ∃ b, (runOps step (World.init α cap) (List.replicate k (.push v))).1 = ⟨b, fun _ => Iter.null⟩ ∧
      b.maxSize = cap ∧ b.numValid = k ∧ b.startIdx = 0 ∧ b.endIdx = k ∧ b.data.length = k ∧
      (∀ n, b.data.head? = some n → n.id = 0 ∧ n.win = 0) ∧ (0 < k → b.data ≠ []) ∧ b.fresh = k := by
  induction k with
  | zero => exact ⟨Buf.init α cap, rfl, rfl, rfl, rfl, rfl, rfl, by simp [Buf.init], by simp, rfl⟩
  | succ k ih =>
    obtain ⟨b, e, h1, h2, h3, h4, h5, h6, h7, h8⟩ := ih (by omega)
    rw [List.replicate_succ', runOps_append, e]
    have e : b.pushBack v = .ok { b with data := b.data ++ [⟨b.fresh, v, b.endIdx⟩], endIdx := b.endIdx + 1, numValid := b.numValid + 1, fresh := b.fresh + 1 } := by
      unfold Buf.pushBack
      dsimp only
      rw [if_neg (show ¬ b.numValid = b.maxSize by omega)]
      simp [h2, h5]
    simp only [runOps, step, e, World.setBuf]
    refine ⟨_, rfl, h1, by dsimp only; omega, h3, by dsimp only; omega, by simp [h5], ?_, by simp, by dsimp only; omega⟩
    intro n hn
    dsimp only at hn
    cases hd : b.data with
    | nil =>
      rw [hd] at hn h5
      simp at hn h5
      subst hn
      dsimp only; omega
    | cons m t => rw [hd] at hn h6; simp at hn; exact h6 n (by simp [hn])

/-- C18 fails with insert: one insert into a full buffer makes it exceed its capacity, and after that every
further append grows it by one for ever. -/
theorem C18_insert_violated (cap : Nat) (hc : 0 < cap) (h32 : cap < 2 ^ 32) (v : α) (k : Nat) :
    (runOps step (World.init α cap)
      (List.replicate cap (.push v) ++ [.begin 0, .insert 0 v 1] ++ List.replicate k (.push v))).1.buf.numValid
      = cap + 1 + k := by
  obtain ⟨b, e, h1, h2, h3, h4, h5, h6, h7, h8⟩ := fill cap v cap (Nat.le_refl _)
  rw [runOps_append, runOps_append, e]
  cases hd : b.data with
  | nil => exact absurd hd (h7 hc)
  | cons n t =>
    obtain ⟨i1, i2⟩ := h6 n (by simp [hd])
    have hb : b.begin = ⟨true, some n.id, n.win⟩ := by
      unfold Buf.begin; rw [h2, hd]; simp; omega
    have hv : b.iterValid ⟨true, some n.id, n.win⟩ = true := by
      simp [Buf.iterValid, Buf.isValidIterator, i2, h3, h4]; omega
    have hp : b.pos n.id = some 0 := by unfold Buf.pos; rw [hd, List.findIdx?_cons, if_pos (by simp)]
    have hi : ∃ b' it, b.insert ⟨true, some n.id, n.win⟩ v = .ok (b', it) ∧ b'.numValid = cap + 1 ∧
        b'.data.length = cap + 1 ∧ b'.maxSize = cap := by
      have hemp : b.data.isEmpty = false := by rw [hd]; rfl
      unfold Buf.insert
      simp only [hemp, hv, if_true, Bool.false_eq_true, if_false, Buf.listInsert, hp]
      have : (Buf.invalidateIndexes { b with data := b.data.insertIdx 0 ⟨b.fresh, v, b.endIdx⟩, numValid := b.numValid + 1, fresh := b.fresh + 1 }).data.find?
          (fun n => n.id == b.fresh) = some ⟨b.fresh, v, b.endIdx + 1⟩ := by
        simp [Buf.invalidateIndexes, renumber]
      rw [this]
      refine ⟨_, _, rfl, by show b.numValid + 1 = _; rw [h2], ?_, h1⟩
      simp [Buf.invalidateIndexes, renumber_length, h5]
    obtain ⟨b', it, g1, g2, g3, g4⟩ := hi
    have : (runOps step (⟨b, fun _ => Iter.null⟩ : World α) [.begin 0, .insert 0 v 1]).1 =
        ⟨b', upd (upd (fun _ => Iter.null) 0 ⟨true, some n.id, n.win⟩) 1 it⟩ := by
      simp [runOps, step, World.setReg, hb, upd_same, g1]
    rw [this, pushes_concrete _ _ _ _ (by omega) (by omega), g2]

/-- C77 fails for an iterator that was past the end: after an append it reports itself valid, and
dereferencing it has undefined behaviour (it still holds the end position of the list). -/
theorem C77_stale_end_violated :
    (runOps step (World.init Nat 4) [.push 1, .end_ 0, .push 2, .isValid 0, .deref 0]).2 =
      [.done, .done, .done, .bool true, .ub] := by decide +kernel

/-- C77: the same happens across clear() -/
theorem C77_stale_end_clear_violated :
    (runOps step (World.init Nat 4) [.push 1, .end_ 0, .clear, .push 2, .isValid 0, .erase 0]).2 =
      [.done, .done, .done, .done, .bool true, .ub] := by decide +kernel

theorem append_many (cap : Nat) (v : α) (k : Nat) :
    ∃ b R, (runOps step (World.init α cap) (List.replicate k (.push v))).1 = ⟨b, R⟩ ∧ b.maxSize = cap ∧
      b.numValid = min k cap ∧ b.data.length = min k cap ∧ b.startIdx = k - cap ∧ b.endIdx = k ∧
      (∀ (i : Nat) (n : Node α), b.data[i]? = some n → n.win = b.startIdx + i) := by
  induction k with
  | zero => exact ⟨Buf.init α cap, _, rfl, rfl, by simp [Buf.init], by simp [Buf.init], by simp [Buf.init], rfl, by simp [Buf.init]⟩
  | succ k ih =>
    obtain ⟨b, R, e, h1, h2, h3, h4, h5, h6⟩ := ih
    rw [List.replicate_succ', runOps_append, e]
    have hw : ∀ (i : Nat) (n : Node α), (b.data ++ [(⟨b.fresh, v, b.endIdx⟩ : Node α)])[i]? = some n → n.win = b.startIdx + i := by
      intro i n hn
      rw [List.getElem?_append] at hn
      split at hn
      · exact h6 i n hn
      · obtain ⟨g1, g2⟩ := List.getElem?_eq_some_iff.1 hn
        simp at g1
        have : i = b.data.length := by omega
        subst this
        simp at g2
        rw [← g2]; dsimp only; omega
    by_cases hc : k < cap
    · have e : b.pushBack v = .ok { b with data := b.data ++ [⟨b.fresh, v, b.endIdx⟩], endIdx := b.endIdx + 1, numValid := b.numValid + 1, fresh := b.fresh + 1 } := by
        unfold Buf.pushBack
        dsimp only
        rw [if_neg (show ¬ b.numValid = b.maxSize by omega)]
        simp [h2, h3]
      simp only [runOps, step, e, World.setBuf]
      exact ⟨_, R, rfl, h1, by dsimp only; omega, by simp; omega, by dsimp only; omega, by dsimp only; omega, hw⟩
    · have e : b.pushBack v = .ok { b with data := (b.data ++ [(⟨b.fresh, v, b.endIdx⟩ : Node α)]).tail, endIdx := b.endIdx + 1, startIdx := b.startIdx + 1, fresh := b.fresh + 1 } := by
        unfold Buf.pushBack
        dsimp only
        rw [if_pos (show b.numValid = b.maxSize by omega)]
        simp [h2, h3]
      simp only [runOps, step, e, World.setBuf]
      refine ⟨_, R, rfl, h1, by dsimp only; omega, by simp; omega, by dsimp only; omega, by dsimp only; omega, ?_⟩
      intro i n hn
      dsimp only at hn ⊢
      rw [List.getElem?_tail] at hn
      have := hw _ n hn
      omega

/-- C18 fails after very many appends: once 2^32 + cap values were appended, the buffer still reports its
size, but reading any position throws, because the 64 bit position is truncated to 32 bits in the validity check. -/
theorem C18_window_violated (cap : Nat) (v : α) (k : Nat) (hk : 2 ^ 32 + cap ≤ k) (i : Nat) :
    (runOps step (World.init α cap) (List.replicate k (.push v))).1.buf.numValid = cap ∧
    (step (runOps step (World.init α cap) (List.replicate k (.push v))).1 (.get i)).2 = .threw := by
  obtain ⟨b, R, e, h1, h2, h3, h4, h5, h6⟩ := append_many cap v k
  rw [e]
  have hinv : ∀ w, b.isValidIterator w = false := by
    intro w
    have : w % 2 ^ 32 < 2 ^ 32 := Nat.mod_lt _ (by decide)
    simp only [Buf.isValidIterator, Bool.and_eq_false_iff, decide_eq_false_iff_not]
    left; omega
  refine ⟨by dsimp only; omega, ?_⟩
  have hget : b.get i = .threw := by
    unfold Buf.get
    split
    · cases i with
      | zero => simp [Buf.advance, Buf.deref, Buf.iterValid, hinv]
      | succ i => simp [Buf.advance, Buf.inc, Buf.iterValid, hinv]
    · rfl
  simp only [step, hget, World.value]

/-- C77: the ordering operators are reversed: for two valid iterators `a < b` holds exactly when `a` is nearer
to the end than `b`, so `begin() < end()` is false. -/
theorem C77_order_reversed_violated :
    (runOps step (World.init Nat 4) [.push 1, .push 2, .begin 0, .end_ 1, .lt 0 1, .gt 0 1]).2 =
      [.done, .done, .done, .done, .bool false, .bool true] := by decide +kernel

end Sparta.CircularBuffer
