import Verif.Queue.Spec
/-! Helper lemmas for the Queue refinement. -/
namespace Sparta.Queue
variable {α : Type}

theorem nextPowerOfTwo_pow (n : Nat) : ∃ k, nextPowerOfTwo n = 2 ^ k := by
  unfold nextPowerOfTwo; split
  · exact ⟨0, rfl⟩
  · exact ⟨_, rfl⟩

theorem nextPowerOfTwo_ge (n : Nat) : n ≤ nextPowerOfTwo n := by
  unfold nextPowerOfTwo; split
  · omega
  · have := Nat.lt_log2_self (n := n - 1)
    omega

theorem nextPowerOfTwo_le (n k : Nat) (h : n ≤ 2 ^ k) : nextPowerOfTwo n ≤ 2 ^ k := by
  unfold nextPowerOfTwo; split
  · exact Nat.one_le_two_pow
  · have h0 : n - 1 ≠ 0 := by omega
    have h1 : Nat.log2 (n - 1) < k := (Nat.log2_lt h0).2 (by omega)
    exact Nat.pow_le_pow_right (by omega) h1

theorem storage_gt (n : Nat) : n < nextPowerOfTwo (n * 2) := by
  have := nextPowerOfTwo_ge (n * 2)
  have : 0 < nextPowerOfTwo (n * 2) := by
    obtain ⟨k, hk⟩ := nextPowerOfTwo_pow (n * 2)
    rw [hk]; exact Nat.two_pow_pos k
  omega

/-- The storage represents the abstract list. -/
structure Rep (q : Q α) (s : Spec α) : Prop where
  pow : ∃ k, k ≤ 31 ∧ q.vectorSize = 2 ^ k
  cap : q.numEntries = s.cap
  capLt : s.cap < q.vectorSize
  len : q.totalValid = s.items.length
  lenLe : s.items.length ≤ s.cap
  headLt : q.head < q.vectorSize
  write : q.write = (q.head + s.items.length) % q.vectorSize
  obj : q.objId = s.pushes
  mem : ∀ i (h : i < s.items.length),
    q.mem ((q.head + i) % q.vectorSize) = some ⟨some s.items[i].2, s.items[i].1⟩
  sorted : s.items.Pairwise (fun a b => a.1 < b.1)
  bound : ∀ x ∈ s.items, x.1 ≤ s.pushes

theorem roll_eq (q : Q α) (hp : ∃ k, k ≤ 31 ∧ q.vectorSize = 2 ^ k) (x : Nat) :
    q.roll x = x % q.vectorSize := by
  obtain ⟨k, hk, hv⟩ := hp
  unfold Q.roll
  rw [hv, land_mask]
  exact Nat.mod_mod_of_dvd x (Nat.pow_dvd_pow 2 (by omega))

theorem dvd32 (q : Q α) (hp : ∃ k, k ≤ 31 ∧ q.vectorSize = 2 ^ k) : q.vectorSize ∣ 2 ^ 32 := by
  obtain ⟨k, hk, hv⟩ := hp
  rw [hv]; exact Nat.pow_dvd_pow 2 (by omega)

theorem vs_pos (q : Q α) (hp : ∃ k, k ≤ 31 ∧ q.vectorSize = 2 ^ k) : 0 < q.vectorSize := by
  obtain ⟨k, _, hv⟩ := hp
  rw [hv]; exact Nat.two_pow_pos k

/-- subtraction modulo 2^32 followed by the mask is subtraction modulo the storage size -/
theorem roll_sub (q : Q α) (hp : ∃ k, k ≤ 31 ∧ q.vectorSize = 2 ^ k) (x y : Nat)
    (hx : x ≤ q.vectorSize) :
    q.roll (y + 2 ^ 32 - x) = (y + q.vectorSize - x) % q.vectorSize := by
  rw [roll_eq q hp]
  obtain ⟨c, hc⟩ := dvd32 q hp
  have hpos := vs_pos q hp
  have hc0 : c ≠ 0 := by rintro rfl; simp at hc
  obtain ⟨d, rfl⟩ : ∃ d, c = d + 1 := ⟨c - 1, by omega⟩
  rw [hc, Nat.mul_add, Nat.mul_one]
  have : y + (q.vectorSize * d + q.vectorSize) - x = (y + q.vectorSize - x) + q.vectorSize * d := by
    omega
  rw [this, Nat.add_mul_mod_self_left]

theorem incr_eq (q : Q α) (hp : ∃ k, k ≤ 31 ∧ q.vectorSize = 2 ^ k) (v : Nat) :
    q.incr v = (v + 1) % q.vectorSize := roll_eq q hp _

theorem decr_eq (q : Q α) (hp : ∃ k, k ≤ 31 ∧ q.vectorSize = 2 ^ k) (v : Nat) :
    q.decr v = (v + q.vectorSize - 1) % q.vectorSize := by
  have := vs_pos q hp
  exact roll_sub q hp 1 v (by omega)

theorem decr_write (q : Q α) (hp : ∃ k, k ≤ 31 ∧ q.vectorSize = 2 ^ k) (n : Nat) (hn : 0 < n)
    (hw : q.write = (q.head + n) % q.vectorSize) :
    q.decr q.write = (q.head + (n - 1)) % q.vectorSize := by
  have hpos := vs_pos q hp
  rw [decr_eq q hp, hw]
  have : (q.head + n) % q.vectorSize + q.vectorSize - 1
      = (q.head + n) % q.vectorSize + (q.vectorSize - 1) := by omega
  rw [this, Nat.mod_add_mod]
  have : q.head + n + (q.vectorSize - 1) = q.head + (n - 1) + q.vectorSize := by omega
  rw [this, Nat.add_mod_right]

theorem Rep.init (n : Nat) (hn : n ≤ 2 ^ 30) : Rep (Q.init α n) (Spec.init α n) where
  pow := by
    obtain ⟨k, hk⟩ := nextPowerOfTwo_pow (n * 2)
    have h := nextPowerOfTwo_le (n * 2) 31 (by omega)
    refine ⟨k, ?_, hk⟩
    rw [hk] at h
    exact (Nat.pow_le_pow_iff_right (by omega)).1 h
  cap := rfl
  capLt := storage_gt n
  len := rfl
  lenLe := by simp [Spec.init]
  headLt := by have := storage_gt n; simp only [Q.init]; omega
  write := by simp [Q.init, Spec.init]
  obj := rfl
  mem := by intro i h; simp [Spec.init] at h
  sorted := by simp [Spec.init]
  bound := by simp [Spec.init]

theorem Rep.push {q : Q α} {s : Spec α} (r : Rep q s) (x : α) (h : s.items.length ≠ s.cap) :
    ∃ q', q.push x = some (q', Iter.mk' q.write (q.objId + 1)) ∧ q'.head = q.head ∧
      q'.vectorSize = q.vectorSize ∧
      Rep q' { s with items := s.items ++ [(s.pushes + 1, x)], pushes := s.pushes + 1 } := by
  have hpos := vs_pos q r.pow
  have hw : q.write < q.vectorSize := by rw [r.write]; exact Nat.mod_lt _ hpos
  have hlen := r.lenLe
  have hcap := r.capLt
  refine ⟨{ q with mem := upd q.mem q.write (some ⟨some x, q.objId + 1⟩), objId := q.objId + 1,
                   write := q.incr q.write, totalValid := q.totalValid + 1 }, by
    unfold Q.push; rw [if_neg (by rw [r.len, r.cap]; exact h), if_neg (by omega)], rfl, rfl, ?_⟩
  refine ⟨r.pow, r.cap, r.capLt, by simp [r.len], by simp; omega, r.headLt, ?_, by simp [r.obj], ?_, ?_, ?_⟩
  · simp only [List.length_append, List.length_cons, List.length_nil]
    rw [incr_eq q r.pow, r.write, Nat.mod_add_mod]; simp [Nat.add_assoc]
  · intro i hi
    simp only [List.length_append, List.length_cons, List.length_nil] at hi
    by_cases hlast : i = s.items.length
    · subst hlast
      simp only [r.obj]
      rw [r.write, upd_same]
      simp
    · have hi' : i < s.items.length := by omega
      show upd q.mem q.write _ ((q.head + i) % q.vectorSize) = _
      rw [upd_other _ _ (by
        rw [r.write]; intro e
        exact hlast (ring_inj r.headLt (by omega) (by omega) e)), r.mem i hi']
      simp [List.getElem_append_left hi']
  · rw [List.pairwise_append]
    refine ⟨r.sorted, by simp, ?_⟩
    intro a ha b hb
    have := r.bound a ha
    simp only [List.mem_singleton] at hb
    subst hb; simp; omega
  · intro a ha
    simp only [List.mem_append, List.mem_singleton] at ha
    rcases ha with ha | ha
    · have := r.bound a ha; simp; omega
    · subst ha; simp

theorem destroy_live {q : Q α} {p : Nat} {x : α} {id : Nat} (h : q.mem p = some ⟨some x, id⟩) :
    q.destroy p = some { q with mem := upd q.mem p (some ⟨none, id⟩) } := by
  simp [Q.destroy, h]

theorem Rep.pop {q : Q α} {s : Spec α} (r : Rep q s) (h : s.items ≠ []) :
    ∃ q', q.pop = some q' ∧ q'.head = (q.head + 1) % q.vectorSize ∧
      q'.vectorSize = q.vectorSize ∧ Rep q' { s with items := s.items.tail } := by
  have hpos := vs_pos q r.pow
  have hl : 0 < s.items.length := List.length_pos_iff.2 h
  have hlen := r.lenLe
  have hcap := r.capLt
  have hm := r.mem 0 hl
  rw [Nat.add_zero, Nat.mod_eq_of_lt r.headLt] at hm
  refine ⟨{ q with mem := upd q.mem q.head (some ⟨none, s.items[0].1⟩), head := q.incr q.head,
                   totalValid := q.totalValid - 1 }, by
    unfold Q.pop; rw [if_neg (by rw [r.len]; omega), destroy_live hm]; rfl, incr_eq q r.pow _, rfl, ?_⟩
  refine ⟨r.pow, r.cap, r.capLt, by simp [r.len], by simp; omega, ?_, ?_, r.obj, ?_, ?_, ?_⟩
  · exact (incr_eq q r.pow _) ▸ Nat.mod_lt _ hpos
  · simp only [List.length_tail]
    rw [incr_eq q r.pow, r.write, Nat.mod_add_mod]; congr 1; omega
  · intro i hi
    simp only [List.length_tail] at hi
    show upd q.mem _ _ _ = _
    rw [incr_eq q r.pow, Nat.mod_add_mod]
    have e : q.head + 1 + i = q.head + (i + 1) := by omega
    rw [e, upd_other]
    · rw [r.mem (i + 1) (by omega)]; simp
    · intro e
      have e' : (q.head + (i + 1)) % q.vectorSize = (q.head + 0) % q.vectorSize := by
        rw [e, Nat.add_zero, Nat.mod_eq_of_lt r.headLt]
      have := ring_inj r.headLt (by omega) (by omega) e'
      omega
  · exact r.sorted.sublist (List.tail_sublist _)
  · intro a ha; exact r.bound a (List.mem_of_mem_tail ha)

theorem Rep.popBack {q : Q α} {s : Spec α} (r : Rep q s) (h : s.items ≠ []) :
    ∃ q', q.popBack = some q' ∧ q'.head = q.head ∧
      q'.vectorSize = q.vectorSize ∧ Rep q' { s with items := s.items.dropLast } := by
  have hpos := vs_pos q r.pow
  have hl : 0 < s.items.length := List.length_pos_iff.2 h
  have hlen := r.lenLe
  have hcap := r.capLt
  have hd := decr_write q r.pow _ hl r.write
  have hm := r.mem (s.items.length - 1) (by omega)
  rw [← hd] at hm
  refine ⟨{ q with mem := upd q.mem (q.decr q.write) (some ⟨none, s.items[s.items.length - 1].1⟩),
                   write := q.decr q.write, totalValid := q.totalValid - 1 }, by
    unfold Q.popBack; rw [if_neg (by rw [r.len]; omega), destroy_live hm]; rfl, rfl, rfl, ?_⟩
  refine ⟨r.pow, r.cap, r.capLt, by simp [r.len], by simp; omega, r.headLt, ?_, r.obj, ?_, ?_, ?_⟩
  · simp only [List.length_dropLast]; exact hd
  · intro i hi
    simp only [List.length_dropLast] at hi
    show upd q.mem _ _ _ = _
    rw [upd_other]
    · rw [r.mem i (by omega)]; simp
    · rw [hd]; intro e
      have := ring_inj r.headLt (by omega) (by omega) e
      omega
  · exact r.sorted.sublist (List.dropLast_sublist _)
  · intro a ha; exact r.bound a (List.dropLast_subset _ ha)

theorem clearLoop_ok : ∀ (n fuel : Nat) (q : Q α) (idx : Nat), n ≤ fuel →
    (∃ k, k ≤ 31 ∧ q.vectorSize = 2 ^ k) → idx < q.vectorSize → n < q.vectorSize →
    q.write = (idx + n) % q.vectorSize →
    (∀ i, i < n → ∃ x id, q.mem ((idx + i) % q.vectorSize) = some ⟨some x, id⟩) →
    ∃ m, q.clearLoop fuel idx = some { q with mem := m } := by
  intro n
  induction n with
  | zero =>
    intro fuel q idx _ _ hi _ hw _
    have : idx = q.write := by rw [hw, Nat.add_zero, Nat.mod_eq_of_lt hi]
    refine ⟨q.mem, ?_⟩
    cases fuel <;> simp [Q.clearLoop, this]
  | succ n ih =>
    intro fuel q idx hf hp hi hn hw hm
    have hpos := vs_pos q hp
    obtain ⟨fuel, rfl⟩ : ∃ f, fuel = f + 1 := ⟨fuel - 1, by omega⟩
    have hne : idx ≠ q.write := by
      intro e
      have : (idx + 0) % q.vectorSize = (idx + (n + 1)) % q.vectorSize := by
        rw [← hw, Nat.add_zero, Nat.mod_eq_of_lt hi]; exact e
      have := ring_inj hi (by omega) hn this
      omega
    obtain ⟨x, id, hx⟩ := hm 0 (by omega)
    rw [Nat.add_zero, Nat.mod_eq_of_lt hi] at hx
    simp only [Q.clearLoop, if_neg hne, destroy_live hx, Option.bind_some]
    obtain ⟨m, hm'⟩ := ih fuel { q with mem := upd q.mem idx (some ⟨none, id⟩) } (q.incr idx)
      (by omega) hp (by rw [incr_eq q hp]; exact Nat.mod_lt _ hpos) (by show n < q.vectorSize; omega)
      (by
        show q.write = (q.incr idx + n) % q.vectorSize
        rw [incr_eq q hp, Nat.mod_add_mod, hw]; congr 1; omega)
      (by
        intro i hi'
        show ∃ x id', upd q.mem idx _ ((q.incr idx + i) % q.vectorSize) = _
        rw [incr_eq q hp, Nat.mod_add_mod]
        have e : idx + 1 + i = idx + (i + 1) := by omega
        rw [e]
        obtain ⟨y, idy, hy⟩ := hm (i + 1) (by omega)
        refine ⟨y, idy, ?_⟩
        rw [upd_other, hy]
        intro e
        have e' : (idx + (i + 1)) % q.vectorSize = (idx + 0) % q.vectorSize := by
          rw [e, Nat.add_zero, Nat.mod_eq_of_lt hi]
        have := ring_inj hi (by omega) (by omega) e'
        omega)
    exact ⟨m, by rw [hm']⟩

theorem Rep.clear {q : Q α} {s : Spec α} (r : Rep q s) :
    ∃ q', q.clear = some q' ∧ q'.vectorSize = q.vectorSize ∧ Rep q' { s with items := [] } := by
  have hpos := vs_pos q r.pow
  have hlen := r.lenLe
  have hcap := r.capLt
  obtain ⟨m, hm⟩ := clearLoop_ok s.items.length q.vectorSize q q.head (by omega) r.pow r.headLt
    (by omega) r.write (fun i hi => ⟨_, _, r.mem i hi⟩)
  refine ⟨{ q with mem := m, write := 0, head := 0, totalValid := 0 }, by
    simp only [Q.clear, hm]; rfl, rfl, ?_⟩
  refine ⟨r.pow, r.cap, r.capLt, rfl, by simp, hpos, ?_, r.obj, ?_, by simp, by simp⟩
  · simp
  · intro i hi; simp at hi

/-- One API call: same success/failure, related states. -/
theorem Rep.step {q : Q α} {s : Spec α} (r : Rep q s) (o : Op α) :
    Rep (q.step o).1 (s.step o).1 ∧ (q.step o).2 = (s.step o).2 := by
  cases o with
  | push x =>
    by_cases h : s.items.length = s.cap
    · have hn : q.push x = none := by simp [Q.push, r.len, r.cap, h]
      simp only [Q.step, hn, Spec.step, if_pos h]; exact ⟨r, trivial⟩
    · obtain ⟨q', h1, _, _, h2⟩ := r.push x h
      simp only [Q.step, h1, Spec.step, if_neg h]; exact ⟨h2, trivial⟩
  | pop =>
    by_cases h : s.items = []
    · have hn : q.pop = none := by simp [Q.pop, r.len, h]
      simp only [Q.step, hn, Spec.step, if_pos h]; exact ⟨r, trivial⟩
    · obtain ⟨q', h1, _, _, h2⟩ := r.pop h
      simp only [Q.step, h1, Spec.step, if_neg h]; exact ⟨h2, trivial⟩
  | popBack =>
    by_cases h : s.items = []
    · have hn : q.popBack = none := by simp [Q.popBack, r.len, h]
      simp only [Q.step, hn, Spec.step, if_pos h]; exact ⟨r, trivial⟩
    · obtain ⟨q', h1, _, _, h2⟩ := r.popBack h
      simp only [Q.step, h1, Spec.step, if_neg h]; exact ⟨h2, trivial⟩
  | clear =>
    obtain ⟨q', h1, _, h2⟩ := r.clear
    simp only [Q.step, h1, Spec.step]; exact ⟨h2, trivial⟩

theorem Rep.slot {q : Q α} {s : Spec α} (r : Rep q s) (i : Nat) (h : i < s.items.length) :
    q.slotData ((q.head + i) % q.vectorSize) = some s.items[i].2 := by
  simp [Q.slotData, r.mem i h]

theorem Rep.read {q : Q α} {s : Spec α} (r : Rep q s) (i : Nat) :
    q.read i = (s.items[i]?).map (·.2) := by
  unfold Q.read
  rw [r.len]
  split
  · next h =>
    rw [Q.physical, roll_eq q r.pow, Nat.add_comm, r.slot i h]; simp [h]
  · next h => rw [List.getElem?_eq_none (by omega)]; rfl

theorem Rep.front {q : Q α} {s : Spec α} (r : Rep q s) : q.front = s.items.head?.map (·.2) := by
  unfold Q.front
  rw [r.len]
  split
  · next h =>
    have := r.slot 0 (by omega)
    rw [Nat.add_zero, Nat.mod_eq_of_lt r.headLt] at this
    rw [this, List.head?_eq_getElem?, List.getElem?_eq_getElem (by omega)]; rfl
  · next h =>
    have : s.items = [] := by simpa using h
    simp [this]

theorem Rep.back {q : Q α} {s : Spec α} (r : Rep q s) : q.back = s.items.getLast?.map (·.2) := by
  unfold Q.back
  rw [r.len]
  split
  · next h =>
    rw [decr_write q r.pow _ (by omega) r.write, r.slot _ (by omega), List.getLast?_eq_getElem?,
      List.getElem?_eq_getElem (by omega)]; rfl
  · next h =>
    have : s.items = [] := by simpa using h
    simp [this]

/-! ### iterators -/

/-- `p` is the storage position of the element number `id` while that element is in the queue -/
def Tracks (q : Q α) (s : Spec α) (p id : Nat) : Prop :=
  p < q.vectorSize ∧ id ≤ s.pushes ∧
    ∀ i (h : i < s.items.length), s.items[i].1 = id → (q.head + i) % q.vectorSize = p

theorem Tracks.step {q : Q α} {s : Spec α} (r : Rep q s) {p id : Nat} (t : Tracks q s p id)
    (o : Op α) : Tracks (q.step o).1 (s.step o).1 p id := by
  obtain ⟨t1, t2, t3⟩ := t
  cases o with
  | push x =>
    by_cases h : s.items.length = s.cap
    · have hn : q.push x = none := by simp [Q.push, r.len, r.cap, h]
      simp only [Q.step, hn, Spec.step, if_pos h]; exact ⟨t1, t2, t3⟩
    · obtain ⟨q', h1, h3, h4, h2⟩ := r.push x h
      simp only [Q.step, h1, Spec.step, if_neg h]
      refine ⟨h4 ▸ t1, by simp; omega, ?_⟩
      intro i hi e
      simp only [List.length_append, List.length_cons, List.length_nil] at hi
      by_cases hl : i < s.items.length
      · simp only [List.getElem_append_left hl] at e
        rw [h3, h4]; exact t3 i hl e
      · have : i = s.items.length := by omega
        subst this; simp at e; omega
  | pop =>
    by_cases h : s.items = []
    · have hn : q.pop = none := by simp [Q.pop, r.len, h]
      simp only [Q.step, hn, Spec.step, if_pos h]; exact ⟨t1, t2, t3⟩
    · obtain ⟨q', h1, h3, h4, h2⟩ := r.pop h
      simp only [Q.step, h1, Spec.step, if_neg h]
      refine ⟨h4 ▸ t1, t2, ?_⟩
      intro i hi e
      simp only [List.length_tail] at hi
      simp only [List.getElem_tail] at e
      rw [h3, h4, Nat.mod_add_mod]
      have := t3 (i + 1) (by omega) e
      rw [← this]; congr 1; omega
  | popBack =>
    by_cases h : s.items = []
    · have hn : q.popBack = none := by simp [Q.popBack, r.len, h]
      simp only [Q.step, hn, Spec.step, if_pos h]; exact ⟨t1, t2, t3⟩
    · obtain ⟨q', h1, h3, h4, h2⟩ := r.popBack h
      simp only [Q.step, h1, Spec.step, if_neg h]
      refine ⟨h4 ▸ t1, t2, ?_⟩
      intro i hi e
      simp only [List.length_dropLast] at hi
      simp only [List.getElem_dropLast] at e
      rw [h3, h4]; exact t3 i (by omega) e
  | clear =>
    obtain ⟨q', h1, h4, h2⟩ := r.clear
    simp only [Q.step, h1, Spec.step]
    refine ⟨h4 ▸ t1, t2, ?_⟩
    intro i hi e
    simp at hi

theorem Rep.run {q : Q α} {s : Spec α} (r : Rep q s) (os : List (Op α)) :
    Rep (runOps Q.step q os).1 (runOps Spec.step s os).1 ∧
      (runOps Q.step q os).2 = (runOps Spec.step s os).2 :=
  runOps_simulation _ _ Rep (fun _ _ o h => h.step o) _ _ r os

theorem Tracks.run {q : Q α} {s : Spec α} (r : Rep q s) {p id : Nat} (t : Tracks q s p id)
    (os : List (Op α)) :
    Tracks (runOps Q.step q os).1 (runOps Spec.step s os).1 p id := by
  induction os generalizing q s with
  | nil => exact t
  | cons o os ih => exact ih (r.step o).1 (t.step r o)

theorem logical_of_phys {q : Q α} {s : Spec α} (r : Rep q s) {p : Nat} (hp : p < q.vectorSize) :
    q.logical p < q.vectorSize ∧ p = (q.head + q.logical p) % q.vectorSize := by
  have hpos := vs_pos q r.pow
  have hne : p ≠ q.invalidIndex := by unfold Q.invalidIndex; omega
  have e : q.logical p = (p + q.vectorSize - q.head) % q.vectorSize := by
    unfold Q.logical; rw [if_neg hne, roll_sub q r.pow _ _ (Nat.le_of_lt r.headLt)]
  rw [e]
  refine ⟨Nat.mod_lt _ hpos, ?_⟩
  rw [Nat.add_mod_mod]
  have hh := r.headLt
  have : q.head + (p + q.vectorSize - q.head) = p + q.vectorSize := by omega
  rw [this, Nat.add_mod_right, Nat.mod_eq_of_lt hp]

/-- validity of an iterator whose id was not truncated -/
theorem valid_iff {q : Q α} {s : Spec α} (r : Rep q s) {p id : Nat} (t : Tracks q s p id) :
    q.iterValid ⟨p, id⟩ = true ↔ ∃ x, (id, x) ∈ s.items := by
  obtain ⟨t1, t2, t3⟩ := t
  have hne : p ≠ q.invalidIndex := by unfold Q.invalidIndex; omega
  obtain ⟨hl1, hl2⟩ := logical_of_phys r t1
  have hlen := r.lenLe
  have hcap := r.capLt
  unfold Q.iterValid
  simp only [if_neg hne, Q.isValidPhysical, r.len]
  constructor
  · intro h
    split at h
    · simp at h
    · split at h
      · next hz hv =>
        simp only [decide_eq_true_eq] at hv
        have hm := r.mem _ hv
        rw [← hl2] at hm
        rw [hm] at h
        simp at h
        exact ⟨s.items[q.logical p].2, by rw [← h]; exact List.getElem_mem hv⟩
      · simp at h
  · rintro ⟨x, hx⟩
    obtain ⟨i, hi, hix⟩ := List.getElem_of_mem hx
    have hp := t3 i hi (by rw [hix])
    have hlog : q.logical p = i := by
      rw [← hp] at hl2
      have := ring_inj r.headLt (by omega) (by rw [hp]; exact hl1) hl2
      rw [← hp]; exact this.symm
    rw [if_neg (by omega), if_pos (by simp [hlog, hi])]
    rw [← hp, r.mem i hi, hix]; simp

theorem deref_eq {q : Q α} {s : Spec α} (r : Rep q s) {p id : Nat} (t : Tracks q s p id) (x : α)
    (hx : (id, x) ∈ s.items) : q.deref ⟨p, id⟩ = some x := by
  unfold Q.deref
  rw [if_pos ((valid_iff r t).2 ⟨x, hx⟩)]
  obtain ⟨i, hi, hix⟩ := List.getElem_of_mem hx
  have hp := t.2.2 i hi (by rw [hix])
  show q.slotData p = some x
  rw [← hp, r.slot i hi, hix]

theorem Tracks.pushed {q : Q α} {s : Spec α} (r : Rep q s) (x : α) {q' : Q α} {it : Iter}
    (h : q.push x = some (q', it)) :
    s.items.length ≠ s.cap ∧ it = Iter.mk' q.write (q.objId + 1) ∧ (q.step (.push x)).1 = q' ∧
    Tracks q' (s.step (.push x)).1 q.write (s.pushes + 1) := by
  have hlen : s.items.length ≠ s.cap := by
    intro e
    simp [Q.push, r.len, r.cap, e] at h
  obtain ⟨q2, h1, h3, h4, h2⟩ := r.push x hlen
  rw [h1] at h
  simp only [Option.some.injEq, Prod.mk.injEq] at h
  obtain ⟨rfl, rfl⟩ := h
  refine ⟨hlen, rfl, by simp [Q.step, h1], ?_⟩
  simp only [Spec.step, if_neg hlen]
  refine ⟨?_, Nat.le_refl _, ?_⟩
  · rw [h4, r.write]; exact Nat.mod_lt _ (vs_pos q r.pow)
  · intro i hi e
    simp only [List.length_append, List.length_cons, List.length_nil] at hi
    by_cases hl : i < s.items.length
    · simp only [List.getElem_append_left hl] at e
      have := r.bound _ (List.getElem_mem hl)
      omega
    · have : i = s.items.length := by omega
      subst this; rw [h3, h4, r.write]

theorem begin_eq {q : Q α} {s : Spec α} (r : Rep q s) (hs : s.pushes < 2 ^ 32)
    (h : 0 < s.items.length) : q.begin = some ⟨q.head, s.items[0].1⟩ := by
  have hm := r.mem 0 h
  rw [Nat.add_zero, Nat.mod_eq_of_lt r.headLt] at hm
  have := r.bound _ (List.getElem_mem h)
  unfold Q.begin
  rw [if_neg (by rw [r.len]; omega), hm]
  simp only [Option.map_some, Iter.mk']
  rw [Nat.mod_eq_of_lt (by omega)]

theorem logical_idx {q : Q α} {s : Spec α} (r : Rep q s) {i : Nat} (hi : i < q.vectorSize) :
    q.logical ((q.head + i) % q.vectorSize) = i := by
  have hpos := vs_pos q r.pow
  obtain ⟨h1, h2⟩ := logical_of_phys r (Nat.mod_lt (q.head + i) hpos)
  exact (ring_inj r.headLt hi h1 h2).symm

theorem incIter_eq {q : Q α} {s : Spec α} (r : Rep q s) (i : Nat) (id : Nat) (h : i < s.items.length) :
    q.incIter ⟨(q.head + i) % q.vectorSize, id⟩ =
      if h' : i + 1 < s.items.length then
        some ⟨(q.head + (i + 1)) % q.vectorSize, s.items[i + 1].1⟩
      else some ⟨q.invalidIndex, q.invalidIndex⟩ := by
  have hpos := vs_pos q r.pow
  have hlen := r.lenLe
  have hcap := r.capLt
  have hm : (q.head + i) % q.vectorSize < q.vectorSize := Nat.mod_lt _ hpos
  have e : q.incr ((q.head + i) % q.vectorSize) = (q.head + (i + 1)) % q.vectorSize := by
    rw [incr_eq q r.pow, Nat.mod_add_mod]; rfl
  unfold Q.incIter
  rw [if_neg (by simp only [Q.invalidIndex]; omega)]
  simp only [e, Q.isValidPhysical, logical_idx r (show i + 1 < q.vectorSize by omega), r.len,
    decide_eq_true_eq]
  split
  · next h' => rw [r.mem _ h']; rfl
  · rfl

theorem decIter_eq {q : Q α} {s : Spec α} (r : Rep q s) (i : Nat) (id : Nat) (h : i < s.items.length) :
    q.decIter ⟨(q.head + i) % q.vectorSize, id⟩ =
      if h' : 0 < i then
        some ⟨(q.head + (i - 1)) % q.vectorSize, s.items[i - 1].1⟩
      else none := by
  have hpos := vs_pos q r.pow
  have hlen := r.lenLe
  have hcap := r.capLt
  have hm : (q.head + i) % q.vectorSize < q.vectorSize := Nat.mod_lt _ hpos
  unfold Q.decIter
  by_cases h0 : i = 0
  · subst h0
    simp [Nat.mod_eq_of_lt r.headLt]
  · have hne : (q.head + i) % q.vectorSize ≠ q.head := by
      intro e
      have : (q.head + i) % q.vectorSize = (q.head + 0) % q.vectorSize := by
        rw [e, Nat.add_zero, Nat.mod_eq_of_lt r.headLt]
      exact h0 (ring_inj r.headLt (by omega) hpos this)
    rw [if_neg hne, if_neg (by simp only [Q.invalidIndex]; omega), dif_pos (by omega)]
    have e : q.decr ((q.head + i) % q.vectorSize) = (q.head + (i - 1)) % q.vectorSize := by
      rw [decr_eq q r.pow]
      have : (q.head + i) % q.vectorSize + q.vectorSize - 1
        = (q.head + i) % q.vectorSize + (q.vectorSize - 1) := by omega
      rw [this, Nat.mod_add_mod]
      have : q.head + i + (q.vectorSize - 1) = q.head + (i - 1) + q.vectorSize := by omega
      rw [this, Nat.add_mod_right]
    simp only [e, r.mem (i - 1) (by omega), Option.map_some]

theorem decEnd_eq {q : Q α} {s : Spec α} (r : Rep q s) (h : 0 < s.items.length) :
    q.decIter q.endIter =
      some ⟨(q.head + (s.items.length - 1)) % q.vectorSize, (s.items[s.items.length - 1]'(by omega)).1⟩ := by
  have hpos := vs_pos q r.pow
  have hh := r.headLt
  have hw : q.decr q.write = (q.head + (s.items.length - 1)) % q.vectorSize := by
    rw [decr_eq q r.pow, r.write]
    have : (q.head + s.items.length) % q.vectorSize + q.vectorSize - 1
      = (q.head + s.items.length) % q.vectorSize + (q.vectorSize - 1) := by omega
    rw [this, Nat.mod_add_mod]
    have : q.head + s.items.length + (q.vectorSize - 1) = q.head + (s.items.length - 1) + q.vectorSize := by omega
    rw [this, Nat.add_mod_right]
  unfold Q.decIter
  have hne : q.endIter.phys ≠ q.head := by
    simp only [Q.endIter, Iter.mk', Q.invalidIndex]; omega
  rw [if_neg hne, if_pos (show q.endIter.phys = q.invalidIndex from rfl)]
  simp only [hw, r.mem (s.items.length - 1) (by omega), Option.map_some]

theorem Tracks.idx {q : Q α} {s : Spec α} (r : Rep q s) (i : Nat) (h : i < s.items.length) :
    Tracks q s ((q.head + i) % q.vectorSize) s.items[i].1 := by
  refine ⟨Nat.mod_lt _ (vs_pos q r.pow), r.bound _ (List.getElem_mem h), ?_⟩
  intro j hj e
  have hp := List.pairwise_iff_getElem.1 r.sorted
  rcases Nat.lt_trichotomy i j with hij | hij | hij
  · have := hp i j h hj hij; omega
  · subst hij; rfl
  · have := hp j i hj h hij; omega

theorem Spec.pushes_mono (s : Spec α) (os : List (Op α)) :
    s.pushes ≤ (runOps Spec.step s os).1.pushes := by
  induction os generalizing s with
  | nil => exact Nat.le_refl _
  | cons o os ih =>
    refine Nat.le_trans ?_ (ih (s.step o).1)
    cases o <;> simp only [Spec.step] <;> (try split) <;> simp

end Sparta.Queue
