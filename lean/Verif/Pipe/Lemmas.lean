import Verif.Pipe.Spec
/-! Helper lemmas for the Pipe refinement. -/
namespace Sparta.Pipe
variable {α : Type}

theorem roundUp_pow (n : Nat) : ∃ k, roundUp n = 2 ^ k := by
  unfold roundUp; split
  · exact ⟨0, rfl⟩
  · exact ⟨_, rfl⟩

theorem roundUp_ge (n : Nat) : n ≤ roundUp n := by
  unfold roundUp; split
  · omega
  · have := Nat.lt_log2_self (n := n - 1)
    omega

theorem roundUp_le (n k : Nat) (h : n ≤ 2 ^ k) : roundUp n ≤ 2 ^ k := by
  unfold roundUp; split
  · exact Nat.one_le_two_pow
  · have h0 : n - 1 ≠ 0 := by omega
    have h1 : Nat.log2 (n - 1) < k := (Nat.log2_lt h0).2 (by omega)
    exact Nat.pow_le_pow_right (by omega) h1

@[simp] theorem sched_mem (p : P α) : p.sched.mem = p.mem := by unfold P.sched; split <;> rfl
@[simp] theorem sched_n (p : P α) : p.sched.n = p.n := by unfold P.sched; split <;> rfl
@[simp] theorem sched_phys (p : P α) : p.sched.phys = p.phys := by unfold P.sched; split <;> rfl
@[simp] theorem sched_tail (p : P α) : p.sched.tail = p.tail := by unfold P.sched; split <;> rfl
@[simp] theorem sched_numValid (p : P α) : p.sched.numValid = p.numValid := by unfold P.sched; split <;> rfl
@[simp] theorem sched_own (p : P α) : p.sched.ownUpdates = p.ownUpdates := by unfold P.sched; split <;> rfl
theorem sched_pending (p : P α) (h : p.ownUpdates = true) : p.sched.pending = true := by simp [P.sched, h]
theorem sched_pending' (p : P α) (h : p.pending = true) : p.sched.pending = true := by
  unfold P.sched; split <;> simp [h]
@[simp] theorem drop_mem (p : P α) (i : Nat) : (p.dropCount i).mem = p.mem := by unfold P.dropCount; split <;> rfl
@[simp] theorem drop_n (p : P α) (i : Nat) : (p.dropCount i).n = p.n := by unfold P.dropCount; split <;> rfl
@[simp] theorem drop_phys (p : P α) (i : Nat) : (p.dropCount i).phys = p.phys := by
  unfold P.dropCount; split <;> rfl
@[simp] theorem drop_tail (p : P α) (i : Nat) : (p.dropCount i).tail = p.tail := by
  unfold P.dropCount; split <;> rfl
@[simp] theorem drop_own (p : P α) (i : Nat) : (p.dropCount i).ownUpdates = p.ownUpdates := by
  unfold P.dropCount; split <;> rfl
@[simp] theorem drop_pending (p : P α) (i : Nat) : (p.dropCount i).pending = p.pending := by
  unfold P.dropCount; split <;> rfl

/-- what the `j`-th slot after the tail holds -/
def view (s : Spec α) (phys j : Nat) : Option α :=
  if j + 1 = phys then s.app else if j < s.n then s.stage j else none

/-- the data part of the relation between pipe and specification -/
structure Rep (p : P α) (s : Spec α) : Prop where
  pow : ∃ k, k ≤ 31 ∧ p.phys = 2 ^ k
  hn : p.n = s.n
  pos : 0 < p.n
  lt : p.n < p.phys
  tl : p.tail < p.phys
  mem : ∀ j, j < p.phys → p.mem ((p.tail + j) % p.phys) = view s p.phys j

theorem Rep.slotIdx {p : P α} (pow : ∃ k, k ≤ 31 ∧ p.phys = 2 ^ k) (x : Nat) :
    x % 2 ^ 32 &&& (p.phys - 1) = x % p.phys := by
  obtain ⟨k, hk, hp⟩ := pow
  rw [hp, land_mask]
  exact Nat.mod_mod_of_dvd x (Nat.pow_dvd_pow 2 (by omega))

theorem Rep.neg1 {p : P α} {s : Spec α} (r : Rep p s) : p.physNeg1 = (p.tail + (p.phys - 1)) % p.phys := by
  unfold P.physNeg1 u32dec
  have hlt := r.lt
  have htl := r.tl
  obtain ⟨k, hk, hp⟩ := r.pow
  rw [hp, land_mask, ← hp]
  split
  · rename_i h0
    rw [h0, Nat.zero_add, Nat.mod_eq_of_lt (a := p.phys - 1) (by omega)]
    have hd : p.phys ∣ 4294967296 := by
      rw [hp]; exact Nat.pow_dvd_pow 2 (m := k) (n := 32) (by omega)
    obtain ⟨c, hc⟩ := hd
    have hc0 : c ≠ 0 := by rintro rfl; simp at hc
    obtain ⟨d, rfl⟩ : ∃ d, c = d + 1 := ⟨c - 1, by omega⟩
    rw [Nat.mul_add, Nat.mul_one] at hc
    rw [show 4294967295 = (p.phys - 1) + p.phys * d by omega, Nat.add_mul_mod_self_left]
    exact Nat.mod_eq_of_lt (by omega)
  · rw [show p.tail + (p.phys - 1) = (p.tail - 1) + p.phys by omega, Nat.add_mod_right]

theorem Rep.stg {p : P α} {s : Spec α} (r : Rep p s) (k : Nat) :
    p.physStage k = if k < s.n then some ((p.tail + k) % p.phys) else none := by
  unfold P.physStage
  rw [Rep.slotIdx r.pow, r.hn]

theorem Rep.memApp {p : P α} {s : Spec α} (r : Rep p s) : p.mem p.physNeg1 = s.app := by
  have := r.lt
  rw [r.neg1, r.mem _ (by omega)]
  simp [view, show p.phys - 1 + 1 = p.phys by omega]

theorem Rep.memStage {p : P α} {s : Spec α} (r : Rep p s) {k : Nat} (h : k < s.n) :
    p.mem ((p.tail + k) % p.phys) = s.stage k := by
  have := r.lt; have := r.hn
  rw [r.mem _ (by omega)]
  simp [view, show k + 1 ≠ p.phys by omega, h]

/-- writing one slot changes exactly that entry of the view -/
theorem Rep.set {p q : P α} {s t : Spec α} (r : Rep p s) (j : Nat) (hj : j < p.phys) (v : Option α)
    (h1 : q.n = p.n) (h2 : q.phys = p.phys) (h3 : q.tail = p.tail)
    (h4 : q.mem = upd p.mem ((p.tail + j) % p.phys) v) (ht : t.n = s.n)
    (h5 : ∀ i, i < p.phys → view t p.phys i = if i = j then v else view s p.phys i) : Rep q t where
  pow := h2 ▸ r.pow
  hn := by rw [h1, r.hn, ht]
  pos := h1 ▸ r.pos
  lt := by rw [h1, h2]; exact r.lt
  tl := by rw [h2, h3]; exact r.tl
  mem := by
    intro i hi
    rw [h2] at hi
    rw [h2, h3, h4, h5 i hi]
    split
    · subst i; simp
    · rw [upd_other]
      · exact r.mem i hi
      · intro e; exact absurd (ring_inj r.tl hi hj e) ‹_›

theorem Rep.setStage {p q : P α} {s : Spec α} (r : Rep p s) (k : Nat) (hk : k < s.n) (v : Option α)
    (h1 : q.n = p.n) (h2 : q.phys = p.phys) (h3 : q.tail = p.tail)
    (h4 : q.mem = upd p.mem ((p.tail + k) % p.phys) v) :
    Rep q { s with stage := fun j => if j = k then v else s.stage j } := by
  have := r.lt; have := r.hn
  refine r.set k (by omega) v h1 h2 h3 h4 rfl ?_
  intro i hi
  simp only [view]
  by_cases hik : i = k
  · subst i; simp [show k + 1 ≠ p.phys by omega, hk]
  · simp [hik]

theorem Rep.setApp {p q : P α} {s : Spec α} (r : Rep p s) (v : Option α)
    (h1 : q.n = p.n) (h2 : q.phys = p.phys) (h3 : q.tail = p.tail)
    (h4 : q.mem = upd p.mem p.physNeg1 v) : Rep q { s with app := v } := by
  have := r.lt
  rw [r.neg1] at h4
  refine r.set (p.phys - 1) (by omega) v h1 h2 h3 h4 rfl ?_
  intro i hi
  simp only [view]
  by_cases hik : i = p.phys - 1
  · subst i; simp [show p.phys - 1 + 1 = p.phys by omega]
  · simp [hik, show i + 1 ≠ p.phys by omega]

/-- all slots emptied -/
theorem Rep.empty {p q : P α} {s : Spec α} (r : Rep p s)
    (h1 : q.n = p.n) (h2 : q.phys = p.phys) (h3 : q.tail = p.tail)
    (h4 : ∀ i, i < p.phys → q.mem ((p.tail + i) % p.phys) = none) :
    Rep q { s with app := none, stage := fun _ => none } where
  pow := h2 ▸ r.pow
  hn := by rw [h1, r.hn]
  pos := h1 ▸ r.pos
  lt := by rw [h1, h2]; exact r.lt
  tl := by rw [h2, h3]; exact r.tl
  mem := by
    intro i hi
    rw [h2] at hi
    rw [h2, h3, h4 i hi]; simp [view]

theorem Rep.init {n : Nat} {p : P α} (hn : n < 2 ^ 31) (h : P.init α n = some p) : Rep p (Spec.init α n) := by
  unfold P.init at h
  split at h
  · obtain rfl := (Option.some.inj h).symm
    have hge := roundUp_ge (n + 1)
    refine ⟨?_, rfl, by assumption, by simp only; omega, by simp only; omega, ?_⟩
    · obtain ⟨k, hk⟩ := roundUp_pow (n + 1)
      refine ⟨k, ?_, hk⟩
      have := roundUp_le (n + 1) 31 (by omega)
      rw [hk] at this
      exact (Nat.pow_le_pow_iff_right (by omega)).1 this
    · intro j hj
      show none = view _ _ _
      unfold view; split
      · rfl
      · split <;> rfl
  · cases h

theorem slots_eq {p : P α} {s : Spec α} (r : Rep p s) :
    p.slots = ((p.phys - 1) :: List.range p.n).map (fun j => (p.tail + j) % p.phys) := by
  unfold P.slots
  rw [List.map_cons, ← r.neg1]
  congr 1
  exact List.map_congr_left (fun i _ => Rep.slotIdx r.pow _)

theorem foldl_clear (l : List Nat) (m : Nat → Option α) (i : Nat) :
    (l.foldl (fun m i => upd m i none) m) i = if i ∈ l then none else m i := by
  induction l generalizing m with
  | nil => simp
  | cons a l ih =>
    rw [List.foldl_cons, ih]
    by_cases h : i ∈ l
    · simp [h]
    · by_cases e : i = a
      · subst e; simp
      · simp [h, e, upd_other]

/-! counting -/
/-- number of valid stages below `m` -/
def cnt (st : Nat → Option α) : Nat → Nat
  | 0 => 0
  | m + 1 => cnt st m + if (st m).isSome then 1 else 0

theorem count_eq (s : Spec α) : s.count = cnt s.stage s.n := by
  unfold Spec.count
  induction s.n with
  | zero => rfl
  | succ m ih =>
    rw [List.range_succ, List.filter_append, List.length_append, ih, cnt]
    congr 1
    by_cases h : (s.stage m).isSome <;> simp [h]

theorem cnt_congr {st st' : Nat → Option α} {m : Nat} (h : ∀ j, j < m → (st j).isSome = (st' j).isSome) :
    cnt st m = cnt st' m := by
  induction m with
  | zero => rfl
  | succ m ih => rw [cnt, cnt, ih (fun j hj => h j (by omega)), h m (by omega)]

theorem cnt_set (st : Nat → Option α) (k m : Nat) (v : Option α) (h : k < m) :
    cnt (fun j => if j = k then v else st j) m + (if (st k).isSome then 1 else 0)
      = cnt st m + (if v.isSome then 1 else 0) := by
  induction m with
  | zero => omega
  | succ m ih =>
    rw [cnt, cnt]
    by_cases e : k = m
    · subst e
      have : cnt (fun j => if j = k then v else st j) k = cnt st k := by
        apply cnt_congr; intro j hj; simp [show j ≠ k by omega]
      simp only [this, if_true]; omega
    · have := ih (by omega)
      simp only [show m ≠ k from fun h => e h.symm, if_false]; omega

theorem cnt_le (st : Nat → Option α) (m : Nat) : cnt st m ≤ m := by
  induction m with
  | zero => simp [cnt]
  | succ m ih => rw [cnt]; split <;> omega

theorem cnt_mono (st : Nat → Option α) {m m' : Nat} (h : m ≤ m') : cnt st m ≤ cnt st m' := by
  induction m' with
  | zero => have : m = 0 := by omega
            subst this; exact Nat.le_refl _
  | succ m' ih =>
    by_cases e : m = m' + 1
    · subst e; exact Nat.le_refl _
    · have := ih (by omega)
      rw [cnt]; omega

theorem cnt_pos {st : Nat → Option α} {m k : Nat} (h : k < m) (hs : (st k).isSome) : 0 < cnt st m := by
  have := cnt_mono st (m := k + 1) (m' := m) h
  rw [cnt, hs] at this; simp at this; omega

theorem cnt_none (m : Nat) : cnt (fun _ => (none : Option α)) m = 0 := by
  induction m with
  | zero => rfl
  | succ m ih => rw [cnt, ih]; rfl

theorem cnt_shift (st : Nat → Option α) (a : Option α) (m : Nat) :
    cnt (fun j => if j = 0 then a else st (j - 1)) (m + 1) = cnt st m + if a.isSome then 1 else 0 := by
  induction m with
  | zero => simp [cnt]
  | succ m ih =>
    rw [cnt, ih, cnt]
    simp only [show m + 1 ≠ 0 by omega, if_false, Nat.add_sub_cancel]
    omega

/-! the fold of flushIf -/
@[simp] theorem fis_n (f : α → Bool) (p : P α) (i : Nat) : (P.flushIfSlot f p i).n = p.n := by
  unfold P.flushIfSlot P.decValid; split <;> (try split) <;> rfl
@[simp] theorem fis_phys (f : α → Bool) (p : P α) (i : Nat) : (P.flushIfSlot f p i).phys = p.phys := by
  unfold P.flushIfSlot P.decValid; split <;> (try split) <;> rfl
@[simp] theorem fis_tail (f : α → Bool) (p : P α) (i : Nat) : (P.flushIfSlot f p i).tail = p.tail := by
  unfold P.flushIfSlot P.decValid; split <;> (try split) <;> rfl
@[simp] theorem fis_own (f : α → Bool) (p : P α) (i : Nat) : (P.flushIfSlot f p i).ownUpdates = p.ownUpdates := by
  unfold P.flushIfSlot P.decValid; split <;> (try split) <;> rfl
@[simp] theorem fis_pending (f : α → Bool) (p : P α) (i : Nat) : (P.flushIfSlot f p i).pending = p.pending := by
  unfold P.flushIfSlot P.decValid; split <;> (try split) <;> rfl

theorem fis_mem (f : α → Bool) (p : P α) (i : Nat) :
    (P.flushIfSlot f p i).mem = upd p.mem i ((p.mem i).filter (fun x => !f x)) := by
  unfold P.flushIfSlot P.decValid
  funext j
  by_cases e : j = i
  · subst e
    cases h : p.mem j with
    | none => simp [upd_same, h]
    | some x => by_cases hx : f x <;> simp [hx, h, upd_same, Option.filter_some]
  · rw [upd_other _ _ e]
    cases h : p.mem i with
    | none => rfl
    | some x => by_cases hx : f x <;> simp [hx, upd_other _ _ e]

theorem fold_fis_fields (f : α → Bool) (p : P α) (l : List Nat) :
    let q := l.foldl (P.flushIfSlot f) p
    q.n = p.n ∧ q.phys = p.phys ∧ q.tail = p.tail ∧ q.ownUpdates = p.ownUpdates ∧ q.pending = p.pending := by
  induction l generalizing p with
  | nil => exact ⟨rfl, rfl, rfl, rfl, rfl⟩
  | cons a l ih => have := ih (P.flushIfSlot f p a); simpa using this

theorem filter_filter (f : α → Bool) (o : Option α) : (o.filter f).filter f = o.filter f := by
  cases o with
  | none => rfl
  | some x => by_cases h : f x <;> simp [Option.filter_some, h]

theorem fold_fis_mem (f : α → Bool) (p : P α) (l : List Nat) (i : Nat) :
    (l.foldl (P.flushIfSlot f) p).mem i
      = if i ∈ l then (p.mem i).filter (fun x => !f x) else p.mem i := by
  induction l generalizing p with
  | nil => simp
  | cons a l ih =>
    rw [List.foldl_cons, ih, fis_mem]
    by_cases h : i ∈ l
    · by_cases e : i = a
      · subst e; simp [h, filter_filter]
      · simp [h, upd_other _ _ e]
    · by_cases e : i = a
      · subst e; simp [h]
      · simp [h, e, upd_other]

theorem mem_slots {p : P α} {s : Spec α} (r : Rep p s) {j : Nat} (hj : j < p.phys) :
    (p.tail + j) % p.phys ∈ p.slots ↔ (j + 1 = p.phys ∨ j < s.n) := by
  have hlt := r.lt; have hn := r.hn
  rw [slots_eq r, List.mem_map]
  constructor
  · rintro ⟨i, hi, e⟩
    have hi' : i < p.phys := by
      rcases List.mem_cons.1 hi with h | h
      · omega
      · have := List.mem_range.1 h; omega
    have := ring_inj r.tl hi' hj e
    subst this
    rcases List.mem_cons.1 hi with h | h
    · left; omega
    · right; have := List.mem_range.1 h; omega
  · intro h
    refine ⟨j, ?_, rfl⟩
    rcases h with h | h
    · exact List.mem_cons.2 (Or.inl (by omega))
    · exact List.mem_cons.2 (Or.inr (List.mem_range.2 (by omega)))

/-- number of decrements of a fold over the first `m` stages -/
theorem fold_fis_count (f : α → Bool) (p : P α) (s : Spec α) (r : Rep p s) (m : Nat) (hm : m ≤ s.n)
    (h1 : cnt s.stage m ≤ p.numValid) (h2 : p.numValid < 2 ^ 32) :
    (((List.range m).map (fun j => (p.tail + j) % p.phys)).foldl (P.flushIfSlot f) p).numValid
      + cnt s.stage m
      = p.numValid + cnt (fun j => (s.stage j).filter (fun x => !f x)) m := by
  have hlt := r.lt; have hn := r.hn
  induction m with
  | zero => simp [cnt]
  | succ m ih =>
    have hle : cnt s.stage m ≤ cnt s.stage (m + 1) := cnt_mono _ (by omega)
    have ih' := ih (by omega) (by omega)
    have hcm : cnt (fun j => (s.stage j).filter (fun x => !f x)) m ≤ cnt s.stage m := by
      clear ih ih' hle h1 hm
      induction m with
      | zero => simp [cnt]
      | succ m ih =>
        simp only [cnt]
        rcases Option.eq_none_or_eq_some (s.stage m) with hx | ⟨x, hx⟩
        · simp [hx]; omega
        · by_cases hf : f x <;> simp [Option.filter_some, hf, hx] <;> omega
    rw [List.range_succ, List.map_append, List.foldl_append]
    simp only [List.map_cons, List.map_nil, List.foldl_cons, List.foldl_nil]
    generalize hq : ((List.range m).map (fun j => (p.tail + j) % p.phys)).foldl (P.flushIfSlot f) p = q at ih' ⊢
    have hmem : q.mem ((p.tail + m) % p.phys) = s.stage m := by
      rw [← hq, fold_fis_mem, if_neg, r.memStage (by omega)]
      intro hh
      obtain ⟨i, hi, e⟩ := List.mem_map.1 hh
      have := List.mem_range.1 hi
      have := ring_inj r.tl (by omega) (by omega) e
      omega
    simp only [P.flushIfSlot, hmem, cnt]
    simp only [cnt] at h1
    rcases Option.eq_none_or_eq_some (s.stage m) with hx | ⟨x, hx⟩
    · simp [hx]; omega
    · simp only [hx] at h1 ⊢; simp only [Option.isSome_some, if_true] at h1
      by_cases hf : f x
      · simp only [hf, P.decValid, Option.filter_some, u32dec, if_true]
        simp
        split <;> omega
      · simp [hf, Option.filter_some]; omega

/-- pending whenever there is something to move -/
def Own (p : P α) (s : Spec α) : Prop :=
  p.ownUpdates = true → p.pending = false → s.app = none ∧ ∀ j, j < s.n → s.stage j = none

/-- the full relation -/
structure Full (p : P α) (s : Spec α) : Prop where
  rep : Rep p s
  nv : p.numValid = s.count
  own : Own p s

theorem inc_small {n : Nat} (h : n < 2 ^ 31) : u32inc n = n + 1 := by unfold u32inc; split <;> omega

theorem drop_count {p : P α} {st : Option α} {i c : Nat} (hm : p.mem i = st)
    (hc : p.numValid = c) (h2 : c < 2 ^ 31) (hpos : st.isSome → 0 < c) :
    (p.dropCount i).numValid + (if st.isSome then 1 else 0) = c := by
  unfold P.dropCount
  rw [hm]
  cases hs : st.isSome with
  | false => simp [hc]
  | true =>
    have := hpos hs
    simp only [P.decValid, hc, u32dec, if_true]
    split <;> omega

theorem Rep.count_lt {p : P α} {s : Spec α} (r : Rep p s) : s.count < 2 ^ 31 := by
  have h1 := cnt_le s.stage s.n
  have h2 : p.phys ≤ 2 ^ 31 := by
    obtain ⟨k, hk, hp⟩ := r.pow
    rw [hp]; exact Nat.pow_le_pow_right (by omega) hk
  have := r.lt; have := r.hn
  rw [count_eq]; omega

/-! the operations: data part -/

theorem Rep.append {p : P α} {s : Spec α} (r : Rep p s) (x : α) :
    Rep (p.step (.append x)).1 (s.step (.append x)).1
      ∧ (p.step (.append x)).2 = (s.step (.append x)).2 := by
  simp only [P.step, P.append, Spec.step, r.memApp]
  cases h : s.app with
  | some y => simpa using r
  | none => simp only [Option.isSome_none, Bool.false_eq_true, if_false]
            exact ⟨r.setApp _ (by simp) (by simp) (by simp) (by simp), trivial⟩

theorem Rep.writePS {p : P α} {s : Spec α} (r : Rep p s) (k : Nat) (x : α) :
    Rep (p.step (.writePS k x)).1 (s.step (.writePS k x)).1
      ∧ (p.step (.writePS k x)).2 = (s.step (.writePS k x)).2 := by
  simp only [P.step, P.writePS, Spec.step, r.stg]
  by_cases h : k < s.n
  · simp only [h, if_true, Option.map_some]
    exact ⟨r.setStage k h _ (by simp [P.incValid]) (by simp [P.incValid]) (by simp [P.incValid])
      (by simp [P.incValid]), trivial⟩
  · simpa [h] using r

theorem Rep.invalidatePS {p : P α} {s : Spec α} (r : Rep p s) (k : Nat) :
    Rep (p.step (.invalidatePS k)).1 (s.step (.invalidatePS k)).1
      ∧ (p.step (.invalidatePS k)).2 = (s.step (.invalidatePS k)).2 := by
  simp only [P.step, P.invalidatePS, Spec.step, r.stg]
  by_cases h : k < s.n
  · simp only [h, if_true, Option.bind_some, r.memStage h, true_and]
    cases hs : (s.stage k).isSome with
    | false => simpa using r
    | true =>
      simp only [if_true]
      exact ⟨r.setStage k h _ (by simp) (by simp) (by simp) (by simp), trivial⟩
  · simpa [h] using r

theorem Rep.flushPS {p : P α} {s : Spec α} (r : Rep p s) (k : Nat) :
    Rep (p.step (.flushPS k)).1 (s.step (.flushPS k)).1
      ∧ (p.step (.flushPS k)).2 = (s.step (.flushPS k)).2 := by
  simp only [P.step, P.flushPS, Spec.step, r.stg]
  by_cases h : k < s.n
  · simp only [h, if_true, Option.map_some]
    exact ⟨r.setStage k h _ (by simp) (by simp) (by simp) (by simp), trivial⟩
  · simpa [h] using r

theorem Rep.flushAll {p : P α} {s : Spec α} (r : Rep p s) :
    Rep (p.step .flushAll).1 (s.step .flushAll).1 := by
  refine r.empty rfl rfl rfl ?_
  intro i hi
  simp only [P.step, P.flushAll]
  rw [foldl_clear]
  split
  · rfl
  · rw [r.mem i hi]
    have := mt (mem_slots r hi).2 ‹_›
    simp only [not_or] at this
    simp [view, this]

theorem Rep.flushIf {p : P α} {s : Spec α} (r : Rep p s) (f : α → Bool) :
    Rep (p.step (.flushIf f)).1 (s.step (.flushIf f)).1 := by
  obtain ⟨h1, h2, h3, -, -⟩ := fold_fis_fields f p p.slots
  simp only [P.step, Spec.step, P.flushIf]
  refine ⟨h2 ▸ r.pow, ?_, h1 ▸ r.pos, ?_, ?_, ?_⟩
  · rw [h1]; exact r.hn
  · rw [h1, h2]; exact r.lt
  · rw [h3, h2]; exact r.tl
  · intro j hj
    rw [h2] at hj
    rw [h3, h2, fold_fis_mem, r.mem j hj]
    have hs := mem_slots r hj
    simp only [view]
    by_cases e : j + 1 = p.phys
    · simp [hs.2 (Or.inl e), e]
    · by_cases e' : j < s.n
      · simp [hs.2 (Or.inr e'), e, e']
      · simp [e, e']

theorem Rep.shiftAppend {p : P α} {s : Spec α} (r : Rep p s) :
    Rep (p.step .shiftAppend).1 (s.step .shiftAppend).1
      ∧ (p.step .shiftAppend).2 = (s.step .shiftAppend).2 := by
  have h0 : 0 < s.n := by have := r.pos; have := r.hn; omega
  simp only [P.step, P.shiftAppend, Spec.step, r.memApp]
  cases h : s.app with
  | none => simpa using r
  | some y =>
    simp only [r.stg, h0, if_true, Option.bind_some, r.memStage h0, P.writePS]
    cases hs : s.stage 0 with
    | some z => simpa using r
    | none =>
      simp only [Option.isSome_none, Bool.false_eq_true, if_false, Option.map_some, Option.isSome_some,
        and_self, if_true]
      refine ⟨?_, trivial⟩
      have r1 : Rep ({ p.dropCount ((p.tail + 0) % p.phys) with
          mem := upd (p.dropCount ((p.tail + 0) % p.phys)).mem ((p.tail + 0) % p.phys) (some y) } : P α).incValid.sched
          { s with stage := fun j => if j = 0 then some y else s.stage j } :=
        r.setStage 0 h0 _ (by simp [P.incValid]) (by simp [P.incValid]) (by simp [P.incValid])
          (by simp [P.incValid])
      refine r1.setApp none rfl rfl rfl ?_
      simp [P.physNeg1, P.incValid]

theorem Rep.internalUpdate {p : P α} {s : Spec α} (r : Rep p s) :
    ∃ q, p.internalUpdate = some q ∧ Rep q (s.step .update).1 := by
  have hlt := r.lt; have hn := r.hn; have hpos := r.pos; have htl := r.tl
  have hk : p.n - 1 < s.n := by omega
  simp only [P.internalUpdate, r.stg, hk, if_true, Option.map_some]
  refine ⟨_, rfl, ?_⟩
  have r1 : Rep (p.clearSlot ((p.tail + (p.n - 1)) % p.phys))
      { s with stage := fun j => if j = p.n - 1 then none else s.stage j } :=
    r.setStage (p.n - 1) hk none (by simp [P.clearSlot]) (by simp [P.clearSlot]) (by simp [P.clearSlot]) (by simp [P.clearSlot])
  generalize hp1 : p.clearSlot ((p.tail + (p.n - 1)) % p.phys) = p1 at r1 ⊢
  have e1 : p1.n = p.n := by rw [← hp1]; simp [P.clearSlot]
  have e2 : p1.phys = p.phys := by rw [← hp1]; simp [P.clearSlot]
  have e3 : p1.tail = p.tail := by rw [← hp1]; simp [P.clearSlot]
  have r2 : Rep p1.advance (s.step .update).1 := by
    refine ⟨r1.pow, r1.hn, r1.pos, r1.lt, ?_, ?_⟩
    · show p1.physNeg1 < p1.phys
      rw [r1.neg1]; exact Nat.mod_lt _ (by omega)
    · show ∀ j, j < p1.phys → p1.mem ((p1.physNeg1 + j) % p1.phys) = view _ p1.phys j
      intro j hj
      rw [r1.neg1, Nat.mod_add_mod]
      simp only [Spec.step]
      by_cases hj0 : j = 0
      · subst hj0
        rw [show p1.tail + (p1.phys - 1) + 0 = p1.tail + (p1.phys - 1) by omega,
          r1.mem _ (by omega)]
        simp [view, show p1.phys - 1 + 1 = p1.phys by omega, show 1 ≠ p1.phys by omega,
          show 0 < s.n by omega]
      · rw [show p1.tail + (p1.phys - 1) + j = p1.tail + (j - 1) + p1.phys by omega, Nat.add_mod_right,
          r1.mem _ (by omega)]
        simp only [view, hj0, if_false, show j - 1 + 1 ≠ p1.phys by omega]
        by_cases hj1 : j + 1 = p1.phys
        · simp [hj1]
          intro h h'
          omega
        · simp only [hj1, if_false]
          by_cases hj2 : j < s.n
          · simp [hj2, show j - 1 < s.n by omega, show j - 1 ≠ p.n - 1 by omega]
          · simp only [hj2, if_false]
            by_cases hj3 : j - 1 < s.n
            · simp [show j - 1 = p.n - 1 by omega]
            · simp [hj3]
  have key : ∀ (a b : P α), a.n = b.n → a.phys = b.phys → a.tail = b.tail → a.mem = b.mem →
      Rep b (s.step .update).1 → Rep a (s.step .update).1 := by
    intro a b h1 h2 h3 h4 r
    exact ⟨h2 ▸ r.pow, h1 ▸ r.hn, h1 ▸ r.pos, by rw [h1, h2]; exact r.lt, by rw [h3, h2]; exact r.tl,
      by rw [h2, h3, h4]; exact r.mem⟩
  have r3 : Rep p1.advance.countTail (s.step .update).1 := by
    unfold P.countTail
    split
    · exact key _ p1.advance rfl rfl rfl rfl r2
    · exact r2
  unfold P.resched
  split
  · exact key _ _ (by simp) (by simp) (by simp) (by simp) r3
  · exact r3

@[simp] theorem clearSlot_own (p : P α) (i : Nat) : (p.clearSlot i).ownUpdates = p.ownUpdates := by
  simp [P.clearSlot]
@[simp] theorem advance_own (p : P α) : p.advance.ownUpdates = p.ownUpdates := rfl
@[simp] theorem countTail_own (p : P α) : p.countTail.ownUpdates = p.ownUpdates := by
  unfold P.countTail; split <;> simp [P.incValid]
@[simp] theorem resched_own (p : P α) : p.resched.ownUpdates = p.ownUpdates := by
  unfold P.resched; split <;> simp

theorem step_own (p : P α) (o : Op α) : (p.step o).1.ownUpdates = p.ownUpdates := by
  have hiu : ∀ (p q : P α), p.internalUpdate = some q → q.ownUpdates = p.ownUpdates := by
    intro p q h
    unfold P.internalUpdate at h
    obtain ⟨i, hi, hq⟩ := Option.map_eq_some_iff.1 h
    rw [← hq]; simp
  cases o with
  | append x =>
    simp only [P.step, P.append]
    cases h : (p.mem p.physNeg1).isSome <;> simp
  | writePS k x =>
    simp only [P.step, P.writePS]
    cases p.physStage k <;> simp [P.incValid]
  | invalidatePS k =>
    simp only [P.step, P.invalidatePS]
    cases p.physStage k with
    | none => simp
    | some i => cases h : (p.mem i).isSome <;> simp [h]
  | flushPS k => simp only [P.step, P.flushPS]; cases p.physStage k <;> simp
  | flushAppend => rfl
  | flushAll => rfl
  | flushIf f => exact (fold_fis_fields f p p.slots).2.2.2.1
  | clear => rfl
  | shiftAppend =>
    simp only [P.step, P.shiftAppend]
    cases p.mem p.physNeg1 with
    | none => rfl
    | some x =>
      simp only
      cases p.physStage 0 with
      | none => rfl
      | some z =>
        simp only [Option.bind_some]
        cases h : (p.mem z).isSome with
        | true => simp
        | false => simp only [Bool.false_eq_true, if_false, P.writePS]
                   cases p.physStage 0 <;> simp [P.incValid]
  | update =>
    simp only [P.step]
    split
    · rename_i q h
      split at h
      · unfold P.cycle at h
        split at h
        · rw [hiu _ _ h]
        · rw [← Option.some.inj h]
      · unfold P.update at h
        split at h
        · cases h
        · exact hiu _ _ h
    · rfl

/-- data refinement of one call, for a pipe updated explicitly -/
theorem Rep.step {p : P α} {s : Spec α} (r : Rep p s) (ho : p.ownUpdates = false) (o : Op α) :
    Rep (p.step o).1 (s.step o).1 ∧ (p.step o).2 = (s.step o).2 := by
  cases o with
  | append x => exact r.append x
  | writePS k x => exact r.writePS k x
  | invalidatePS k => exact r.invalidatePS k
  | flushPS k => exact r.flushPS k
  | flushAppend => exact ⟨r.setApp none rfl rfl rfl rfl, rfl⟩
  | flushAll => exact ⟨r.flushAll, rfl⟩
  | flushIf f => exact ⟨r.flushIf f, rfl⟩
  | clear => exact ⟨r.empty rfl rfl rfl (fun _ _ => rfl), rfl⟩
  | shiftAppend => exact r.shiftAppend
  | update =>
    obtain ⟨q, hq, rq⟩ := r.internalUpdate
    simp only [P.step, ho, P.update, hq, Bool.false_eq_true, if_false]
    exact ⟨rq, rfl⟩

theorem Rep.run {p : P α} {s : Spec α} (r : Rep p s) (ho : p.ownUpdates = false) (os : List (Op α)) :
    Rep (runOps P.step p os).1 (runOps Spec.step s os).1
      ∧ (runOps P.step p os).2 = (runOps Spec.step s os).2 := by
  have := runOps_simulation P.step Spec.step (fun p s => Rep p s ∧ p.ownUpdates = false)
    (fun p s o h => ⟨⟨(h.1.step h.2 o).1, by rw [step_own, h.2]⟩, (h.1.step h.2 o).2⟩) p s ⟨r, ho⟩ os
  exact ⟨this.1.1, this.2⟩

/-! the full relation (count and pending update) -/

theorem Full.init {n : Nat} {p : P α} (hn : n < 2 ^ 31) (h : P.init α n = some p) :
    Full p (Spec.init α n) := by
  refine ⟨Rep.init hn h, ?_, ?_⟩
  · rw [count_eq]
    unfold P.init at h
    split at h
    · rw [← Option.some.inj h]; exact (cnt_none n).symm
    · cases h
  · intro _ _; exact ⟨rfl, fun _ _ => rfl⟩

theorem Full.performOwnUpdates {p : P α} {s : Spec α} (f : Full p s) (ho : p.ownUpdates = false) :
    Full p.performOwnUpdates s ∧ p.performOwnUpdates.ownUpdates = true := by
  have r := f.rep
  have hc := f.nv
  unfold P.performOwnUpdates
  split
  · exact ⟨⟨⟨r.pow, r.hn, r.pos, r.lt, r.tl, r.mem⟩, hc, fun _ h => by cases h⟩, rfl⟩
  · rename_i h
    refine ⟨⟨⟨r.pow, r.hn, r.pos, r.lt, r.tl, r.mem⟩, hc, fun _ _ => ?_⟩, rfl⟩
    simp only [ho, Bool.false_eq_true, not_false_eq_true, true_and, P.isAnyValid, r.memApp,
      Bool.or_eq_true, decide_eq_true_eq, not_or] at h
    refine ⟨by cases h' : s.app <;> simp_all, fun j hj => ?_⟩
    apply Classical.byContradiction; intro hne
    have : (s.stage j).isSome := by cases h' : s.stage j <;> simp_all
    have := cnt_pos hj this
    rw [hc, count_eq] at h
    omega

theorem own_of_pending {q : P α} {t : Spec α} (h : q.ownUpdates = true → q.pending = true) : Own q t :=
  fun h1 h2 => by rw [h h1] at h2; cases h2

theorem own_sched {q : P α} {t : Spec α} : Own q.sched t :=
  own_of_pending (fun h => sched_pending q (by simpa using h))

/-- one call, full relation -/
theorem Full.internalUpdate {p : P α} {s : Spec α} (r : Rep p s) (hc : p.numValid = s.count) :
    ∃ q, p.internalUpdate = some q ∧ Full q (s.step .update).1 := by
  obtain ⟨q, hq, rq⟩ := r.internalUpdate
  suffices hh : q.numValid = (s.step .update).1.count ∧ Own q (s.step .update).1 from
    ⟨q, hq, rq, hh.1, hh.2⟩
  have hlt := r.count_lt
  have hn := r.hn; have hpos := r.pos
  have hk : p.n - 1 < s.n := by omega
  simp only [P.internalUpdate, r.stg, hk, if_true, Option.map_some, Option.some.injEq] at hq
  have hd := drop_count (p := p) (r.memStage hk) hc hlt
    (fun h => by rw [count_eq]; exact cnt_pos hk h)
  have hcs := cnt_set s.stage (p.n - 1) s.n none hk
  have hsh := cnt_shift s.stage s.app (p.n - 1)
  obtain ⟨m, hm⟩ : ∃ m, s.n = m + 1 := ⟨s.n - 1, by omega⟩
  have hpm : p.n - 1 = m := by omega
  have hcnt : s.count = cnt s.stage m + (if (s.stage m).isSome then 1 else 0) := by
    rw [count_eq, hm, cnt]
  have hcnt' : (s.step .update).1.count = cnt s.stage m + (if s.app.isSome then 1 else 0) := by
    rw [count_eq]
    show cnt (fun j => if j = 0 then s.app else s.stage (j - 1)) s.n = _
    rw [hm, cnt_shift]
  have htail : (p.clearSlot ((p.tail + (p.n - 1)) % p.phys)).advance.mem
      (p.clearSlot ((p.tail + (p.n - 1)) % p.phys)).advance.tail = s.app := by
    have r1 : Rep (p.clearSlot ((p.tail + (p.n - 1)) % p.phys))
      { s with stage := fun j => if j = p.n - 1 then none else s.stage j } :=
      r.setStage (p.n - 1) hk none (by simp [P.clearSlot]) (by simp [P.clearSlot]) (by simp [P.clearSlot])
        (by simp [P.clearSlot])
    exact r1.memApp
  have hnv : (p.clearSlot ((p.tail + (p.n - 1)) % p.phys)).advance.countTail.numValid
      = (s.step .update).1.count := by
    have h1 : (p.clearSlot ((p.tail + (p.n - 1)) % p.phys)).advance.numValid
        = (p.dropCount ((p.tail + (p.n - 1)) % p.phys)).numValid := rfl
    unfold P.countTail
    rw [htail, hcnt']
    rw [hpm] at hd h1 ⊢
    cases ha : s.app.isSome with
    | false => simp only [Bool.false_eq_true, if_false]; omega
    | true =>
      simp only [if_true, P.incValid, h1]
      rw [inc_small (by omega)]; omega
  constructor
  · rw [← hq, ← hnv]
    unfold P.resched; split <;> simp
  · rw [← hq]
    unfold P.resched
    split
    · exact own_sched
    · rename_i h0
      intro _ _
      refine ⟨rfl, fun j hj => ?_⟩
      apply Classical.byContradiction; intro hne
      have h2 : ((s.step .update).1.stage j).isSome := by
        cases h' : (s.step .update).1.stage j <;> simp_all
      have := cnt_pos hj h2
      rw [hnv, count_eq] at h0
      omega

theorem Full.step {p : P α} {s : Spec α} (f : Full p s) (o : Op α) (ok : s.okOp o) :
    Full (p.step o).1 (s.step o).1 ∧ (p.step o).2 = (s.step o).2 := by
  have r := f.rep
  have hc := f.nv
  have hlt := r.count_lt
  cases o with
  | append x =>
    refine ⟨⟨(r.append x).1, ?_, ?_⟩, (r.append x).2⟩
    · simp only [P.step, P.append, Spec.step, r.memApp]
      cases h : s.app.isSome
      · simp only [Bool.false_eq_true, if_false, sched_numValid]; exact hc
      · simp only [if_true]; exact hc
    · simp only [P.step, P.append, Spec.step, r.memApp]
      cases h : s.app.isSome
      · simp only [Bool.false_eq_true, if_false]; exact own_sched
      · simp only [if_true]; exact f.own
  | writePS k x =>
    refine ⟨⟨(r.writePS k x).1, ?_, ?_⟩, (r.writePS k x).2⟩
    · simp only [P.step, P.writePS, Spec.step, r.stg]
      by_cases h : k < s.n
      · have hd := drop_count (p := p) (r.memStage h) hc hlt
          (fun h' => by rw [count_eq]; exact cnt_pos h h')
        have hcs := cnt_set s.stage k s.n (some x) h
        simp only [h, if_true, Option.map_some, sched_numValid, P.incValid]
        rw [inc_small (by omega), count_eq]
        rw [count_eq] at hd
        simp only [Option.isSome_some, if_true] at hcs ⊢
        omega
      · simpa [h] using hc
    · simp only [P.step, P.writePS, Spec.step, r.stg]
      by_cases h : k < s.n
      · simp only [h, if_true, Option.map_some]; exact own_sched
      · simpa [h] using f.own
  | invalidatePS k =>
    refine ⟨⟨(r.invalidatePS k).1, ?_, ?_⟩, (r.invalidatePS k).2⟩
    · simp only [P.step, P.invalidatePS, Spec.step, r.stg]
      by_cases h : k < s.n
      · have hd := drop_count (p := p) (r.memStage h) hc hlt
          (fun h' => by rw [count_eq]; exact cnt_pos h h')
        have hcs := cnt_set s.stage k s.n none h
        simp only [h, if_true, Option.bind_some, r.memStage h, true_and]
        cases hs : (s.stage k).isSome with
        | false => simpa using hc
        | true =>
          simp only [if_true, sched_numValid]
          rw [count_eq] at hd ⊢
          simp only [hs, if_true, Option.isSome_none, Bool.false_eq_true, if_false] at hcs hd ⊢
          omega
      · simpa [h] using hc
    · simp only [P.step, P.invalidatePS, Spec.step, r.stg]
      by_cases h : k < s.n
      · simp only [h, if_true, Option.bind_some, r.memStage h, true_and]
        cases hs : (s.stage k).isSome with
        | false => simpa using f.own
        | true => simp only [if_true]; exact own_sched
      · simpa [h] using f.own
  | flushPS k =>
    refine ⟨⟨(r.flushPS k).1, ?_, ?_⟩, (r.flushPS k).2⟩
    · simp only [P.step, P.flushPS, Spec.step, r.stg]
      by_cases h : k < s.n
      · have hd := drop_count (p := p) (r.memStage h) hc hlt
          (fun h' => by rw [count_eq]; exact cnt_pos h h')
        have hcs := cnt_set s.stage k s.n none h
        simp only [h, if_true, Option.map_some]
        rw [count_eq] at hd ⊢
        simp only [Option.isSome_none, Bool.false_eq_true, if_false] at hcs ⊢
        omega
      · simpa [h] using hc
    · simp only [P.step, P.flushPS, Spec.step, r.stg]
      by_cases h : k < s.n
      · simp only [h, if_true, Option.map_some]
        intro h1 h2
        obtain ⟨h3, h4⟩ := f.own (by simpa using h1) (by simpa using h2)
        refine ⟨h3, fun j hj => ?_⟩
        show (if j = k then none else s.stage j) = none
        rw [h4 j hj]; simp
      · simpa [h] using f.own
  | flushAppend =>
    exact ⟨⟨r.setApp none rfl rfl rfl rfl, hc, fun h1 h2 => ⟨rfl, (f.own h1 h2).2⟩⟩, rfl⟩
  | flushAll =>
    refine ⟨⟨r.flushAll, ?_, fun _ _ => ⟨rfl, fun _ _ => rfl⟩⟩, rfl⟩
    rw [count_eq]; exact (cnt_none s.n).symm
  | flushIf g =>
    refine ⟨⟨r.flushIf g, ?_, ?_⟩, rfl⟩
    · rw [count_eq]
      show (p.slots.foldl (P.flushIfSlot g) p).numValid = cnt (fun j => (s.stage j).filter (fun x => !g x)) s.n
      rw [slots_eq r, List.map_cons, List.foldl_cons, ← r.neg1]
      have e : P.flushIfSlot g p p.physNeg1 = p := by
        unfold P.flushIfSlot
        rw [r.memApp]
        cases ha : s.app with
        | none => rfl
        | some x => simp [ok x ha]
      have hfc := fold_fis_count g p s r s.n (Nat.le_refl _) (by rw [hc, count_eq]; exact Nat.le_refl _)
        (by rw [hc]; omega)
      rw [e, r.hn]
      rw [hc, count_eq] at hfc
      omega
    · obtain ⟨-, -, -, h4, h5⟩ := fold_fis_fields g p p.slots
      intro h1 h2
      obtain ⟨h6, h7⟩ := f.own (h4 ▸ h1) (h5 ▸ h2)
      refine ⟨?_, fun j hj => ?_⟩
      · show s.app.filter _ = none
        rw [h6]; rfl
      · show (s.stage j).filter _ = none
        rw [h7 j hj]; rfl
  | clear =>
    refine ⟨⟨r.empty rfl rfl rfl (fun _ _ => rfl), ?_, fun _ _ => ⟨rfl, fun _ _ => rfl⟩⟩, rfl⟩
    rw [count_eq]; exact (cnt_none s.n).symm
  | shiftAppend =>
    have h0 : 0 < s.n := by have := r.pos; have := r.hn; omega
    refine ⟨⟨r.shiftAppend.1, ?_, ?_⟩, r.shiftAppend.2⟩
    · simp only [P.step, P.shiftAppend, Spec.step, r.memApp]
      cases h : s.app with
      | none => simpa using hc
      | some y =>
        simp only [r.stg, h0, if_true, Option.bind_some, r.memStage h0, P.writePS]
        cases hs : s.stage 0 with
        | some z => simpa using hc
        | none =>
          have hd := drop_count (p := p) (r.memStage h0) hc hlt
            (fun h' => by rw [count_eq]; exact cnt_pos h0 h')
          have hcs := cnt_set s.stage 0 s.n (some y) h0
          simp only [Option.isSome_none, Bool.false_eq_true, if_false, Option.map_some, Option.isSome_some,
            and_self, if_true, sched_numValid, P.incValid, hs, Nat.add_zero] at hd hcs ⊢
          rw [inc_small (by omega), hd, count_eq, count_eq]
          exact hcs.symm
    · simp only [P.step, P.shiftAppend, Spec.step, r.memApp]
      cases h : s.app with
      | none => simpa using f.own
      | some y =>
        simp only [r.stg, h0, if_true, Option.bind_some, r.memStage h0, P.writePS]
        cases hs : s.stage 0 with
        | some z => simpa using f.own
        | none =>
          simp only [Option.isSome_none, Bool.false_eq_true, if_false, Option.map_some, Option.isSome_some,
            and_self, if_true]
          exact own_of_pending (fun h => sched_pending _ (by simpa using h))
  | update =>
    simp only [P.step]
    cases ho : p.ownUpdates with
    | false =>
      obtain ⟨q, hq, fq⟩ := Full.internalUpdate r hc
      simp only [P.update, ho, hq, Bool.false_eq_true, if_false]
      exact ⟨fq, rfl⟩
    | true =>
      simp only [if_true, P.cycle]
      cases hp : p.pending with
      | true =>
        have r' : Rep { p with pending := false } s := ⟨r.pow, r.hn, r.pos, r.lt, r.tl, r.mem⟩
        obtain ⟨q, hq, fq⟩ := Full.internalUpdate (p := { p with pending := false }) r' hc
        simp only [if_true, hq]
        exact ⟨fq, rfl⟩
      | false =>
        obtain ⟨h1, h2⟩ := f.own ho hp
        simp only [Bool.false_eq_true, if_false]
        refine ⟨⟨⟨r.pow, r.hn, r.pos, r.lt, r.tl, ?_⟩, ?_, fun _ _ => ⟨rfl, ?_⟩⟩, rfl⟩
        · intro j hj
          rw [r.mem j hj]
          simp only [view, Spec.step, h1]
          by_cases e : j + 1 = p.phys
          · simp [e]
          · by_cases e' : j < s.n
            · by_cases e0 : j = 0
              · subst e0; simp [e, e', h2 0 e']
              · simp [e, e', e0, h2 j e', h2 (j - 1) (by omega)]
            · simp [e, e']
        · rw [hc, count_eq, count_eq]
          apply cnt_congr
          intro j hj
          show (s.stage j).isSome = (if j = 0 then s.app else s.stage (j - 1)).isSome
          rw [h2 j hj]
          split
          · rw [h1]
          · rw [h2 (j - 1) (by omega)]
        · intro j hj
          show (if j = 0 then s.app else s.stage (j - 1)) = none
          split
          · exact h1
          · exact h2 _ (by have : j < s.n := hj
                           omega)

theorem Full.run {p : P α} {s : Spec α} (f : Full p s) (os : List (Op α)) (ok : s.okHistory os) :
    Full (runOps P.step p os).1 (runOps Spec.step s os).1
      ∧ (runOps P.step p os).2 = (runOps Spec.step s os).2 := by
  induction os generalizing p s with
  | nil => exact ⟨f, rfl⟩
  | cons o os ih =>
    obtain ⟨h1, h2⟩ := f.step o ok.1
    obtain ⟨h3, h4⟩ := ih h1 ok.2
    exact ⟨h3, by simp [runOps, h2, h4]⟩

/-- observations determined by the data relation -/
theorem Rep.isValid {p : P α} {s : Spec α} (r : Rep p s) (k : Nat) :
    p.isValid k = if k < s.n then some (s.stage k).isSome else none := by
  unfold P.isValid
  rw [r.stg]
  by_cases h : k < s.n <;> simp [h, r.memStage]

theorem Rep.read {p : P α} {s : Spec α} (r : Rep p s) (k : Nat) :
    p.read k = if k < s.n then s.stage k else none := by
  unfold P.read
  rw [r.stg]
  by_cases h : k < s.n <;> simp [h, r.memStage]

end Sparta.Pipe
