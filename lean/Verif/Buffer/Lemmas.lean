import Verif.Buffer.Spec
import Verif.ListLemmas
/-! A Buffer represents a list of slots with values. -/
namespace Sparta.Buffer
variable {α : Type}

theorem insertLoop_spec (b : Buf α) (k i : Nat) (hk : k ≤ i) : ∃ pm : Nat → Nat,
    insertLoop b k i = { b with map := fun j => if i - k < j ∧ j ≤ i then b.map (j - 1) else b.map j, pidx := pm,
                                amap := fun j => if i - k < j ∧ j ≤ i then b.amap (j - 1) else b.amap j } ∧
    (∀ t, (∀ j, i - k < j → j ≤ i → b.map (j - 1) ≠ some t) → pm t = b.pidx t) ∧
    (∀ j t, i - k < j → j ≤ i → b.map (j - 1) = some t →
      (∀ j', i - k < j' → j' ≤ i → b.map (j' - 1) = some t → j' = j) → pm t = j) := by
  induction k generalizing b i with
  | zero =>
    refine ⟨b.pidx, ?_, fun _ _ => rfl, fun j t h1 h2 => by omega⟩
    have e : ∀ j, ¬ (i - 0 < j ∧ j ≤ i) := by omega
    simp only [insertLoop, e, if_false]
  | succ k ih =>
    unfold insertLoop
    simp only
    obtain ⟨pm, e, h1, h2⟩ := ih { b with map := upd b.map i (b.map (i - 1)), pidx := setPidx b.pidx (b.map (i - 1)) i, amap := upd b.amap i (b.amap (i - 1)) } (i - 1) (by omega)
    have um : ∀ j, j ≤ i - 1 → upd b.map i (b.map (i - 1)) (j - 1) = b.map (j - 1) := fun j hj => upd_other _ _ (by omega)
    refine ⟨pm, ?_, ?_, ?_⟩
    · rw [e]
      simp only
      congr 1
      · funext j
        by_cases hj : i - 1 - k < j ∧ j ≤ i - 1
        · rw [if_pos hj, if_pos (by omega)]; exact um j hj.2
        · rw [if_neg hj]
          by_cases hji : j = i
          · subst hji; rw [upd_same, if_pos (by omega)]
          · rw [upd_other _ _ hji, if_neg (by omega)]
      · funext j
        by_cases hj : i - 1 - k < j ∧ j ≤ i - 1
        · rw [if_pos hj, if_pos (by omega)]; exact upd_other _ _ (by omega)
        · rw [if_neg hj]
          by_cases hji : j = i
          · subst hji; rw [upd_same, if_pos (by omega)]
          · rw [upd_other _ _ hji, if_neg (by omega)]
    · intro t ht
      rw [h1 t (fun j h3 h4 => by simp only [um j h4]; exact ht j (by omega) (by omega))]
      have := ht i (by omega) (by omega)
      show setPidx b.pidx (b.map (i - 1)) i t = b.pidx t
      cases hs : b.map (i - 1) with
      | none => rfl
      | some t' => exact upd_other _ _ (fun hc => this (hc ▸ hs))
    · intro j t h3 h4 h5 h6
      by_cases hji : j = i
      · subst hji
        rw [h1 t ?_]
        · simp only [setPidx, h5, upd_same]
        · intro j' h7 h8
          simp only [um j' h8]
          intro h9
          have := h6 j' (by omega) (by omega) h9
          omega
      · refine h2 j t (by omega) (by omega) (by simp only [um j (by omega)]; exact h5) ?_
        intro j' h7 h8 h9
        simp only [um j' h8] at h9
        exact h6 j' (by omega) (by omega) h9

theorem eraseLoop_spec (b : Buf α) (k i : Nat) : ∃ pm : Nat → Nat,
    eraseLoop b k i = { b with map := fun j => if i ≤ j ∧ j < i + k then b.map (j + 1) else b.map j, pidx := pm,
                               amap := fun j => if i ≤ j ∧ j < i + k then b.amap (j + 1) else b.amap j } ∧
    (∀ t, (∀ j, i ≤ j → j < i + k → b.map (j + 1) ≠ some t) → pm t = b.pidx t) ∧
    (∀ j t, i ≤ j → j < i + k → b.map (j + 1) = some t →
      (∀ j', i ≤ j' → j' < i + k → b.map (j' + 1) = some t → j' = j) → pm t = j) := by
  induction k generalizing b i with
  | zero =>
    refine ⟨b.pidx, ?_, fun _ _ => rfl, fun j t h1 h2 => by omega⟩
    have e : ∀ j, ¬ (i ≤ j ∧ j < i + 0) := by omega
    simp only [eraseLoop, e, if_false]
  | succ k ih =>
    unfold eraseLoop
    simp only
    obtain ⟨pm, e, h1, h2⟩ := ih { b with map := upd b.map i (b.map (i + 1)), pidx := setPidx b.pidx (b.map (i + 1)) i, amap := upd b.amap i (b.amap (i + 1)) } (i + 1)
    have um : ∀ j, i ≤ j → upd b.map i (b.map (i + 1)) (j + 1) = b.map (j + 1) := fun j hj => upd_other _ _ (by omega)
    refine ⟨pm, ?_, ?_, ?_⟩
    · rw [e]
      simp only
      congr 1
      · funext j
        by_cases hj : i + 1 ≤ j ∧ j < i + 1 + k
        · rw [if_pos hj, if_pos (by omega)]; exact um j (by omega)
        · rw [if_neg hj]
          by_cases hji : j = i
          · subst hji; rw [upd_same, if_pos (by omega)]
          · rw [upd_other _ _ hji, if_neg (by omega)]
      · funext j
        by_cases hj : i + 1 ≤ j ∧ j < i + 1 + k
        · rw [if_pos hj, if_pos (by omega)]; exact upd_other _ _ (by omega)
        · rw [if_neg hj]
          by_cases hji : j = i
          · subst hji; rw [upd_same, if_pos (by omega)]
          · rw [upd_other _ _ hji, if_neg (by omega)]
    · intro t ht
      rw [h1 t (fun j h3 h4 => by simp only [um j (show i ≤ j by omega)]; exact ht j (by omega) (by omega))]
      have := ht i (by omega) (by omega)
      show setPidx b.pidx (b.map (i + 1)) i t = b.pidx t
      cases hs : b.map (i + 1) with
      | none => rfl
      | some t' => exact upd_other _ _ (fun hc => this (hc ▸ hs))
    · intro j t h3 h4 h5 h6
      by_cases hji : j = i
      · subst hji
        rw [h1 t ?_]
        · simp only [setPidx, h5, upd_same]
        · intro j' h7 h8
          simp only [um j' (show j ≤ j' by omega)]
          intro h9
          have := h6 j' (by omega) (by omega) h9
          omega
      · refine h2 j t (by omega) (by omega) (by simp only [um j (by omega)]; exact h5) ?_
        intro j' h7 h8 h9
        simp only [um j' (show i ≤ j' by omega)] at h9
        exact h6 j' (by omega) (by omega) h9

/-- from `f` along `next` through `fs` to `e` -/
def Chain (next : Nat → Nat) : Nat → List Nat → Nat → Prop
  | f, [], e => f = e
  | f, x :: xs, e => f = x ∧ Chain next (next f) xs e

theorem Chain.congr {next next' : Nat → Nat} {f e : Nat} {fs : List Nat} (h : Chain next f fs e)
    (hn : ∀ x ∈ fs, next' x = next x) : Chain next' f fs e := by
  induction fs generalizing f with
  | nil => exact h
  | cons x xs ih =>
    obtain ⟨rfl, h2⟩ := h
    exact ⟨rfl, by rw [hn f (by simp)]; exact ih h2 (fun y hy => hn y (by simp [hy]))⟩

theorem chain_fresh (cap s k : Nat) (h : s + k < 2 * cap) : Chain (chainNext cap) s (List.range' s k) (s + k) := by
  induction k generalizing s with
  | zero => rfl
  | succ k ih =>
    refine ⟨rfl, ?_⟩
    have e : chainNext cap s = s + 1 := if_pos (by omega)
    rw [e]
    have := ih (s + 1) (by omega)
    rwa [show s + 1 + k = s + (k + 1) by omega] at this

structure Rep (b : Buf α) (l : List (Nat × α)) (p a : Bool) : Prop where
  n : b.n = l.length
  pos : 0 < b.cap
  map : ∀ i, b.map i = l[i]?.map (·.1)
  data : ∀ e ∈ l, b.data e.1 = some e.2
  valid : ∀ h, b.valid h = true ↔ h ∈ l.map (·.1)
  pidx : p = true → ∀ i e, l[i]? = some e → b.pidx e.1 = i
  amap : a = true → ∀ i e, l[i]? = some e → b.amap i = e.1
  chain : ∃ fs, Chain b.next b.free fs b.cap ∧ (fs ++ l.map (·.1)).Perm (List.range b.cap)

theorem Rep.le {b : Buf α} {l p a} (r : Rep b l p a) : l.length ≤ b.cap := by
  obtain ⟨fs, _, h⟩ := r.chain
  have := h.length_eq
  simp at this
  omega

theorem Rep.nodup {b : Buf α} {l p a} (r : Rep b l p a) : (l.map (·.1)).Nodup := by
  obtain ⟨fs, _, h⟩ := r.chain
  exact (List.nodup_append.1 (h.symm.nodup List.nodup_range)).2.1

theorem Rep.lt {b : Buf α} {l p a} (r : Rep b l p a) {h : Nat} (hh : h ∈ l.map (·.1)) : h < b.cap := by
  obtain ⟨fs, _, hp⟩ := r.chain
  have := hp.mem_iff.1 (List.mem_append_right fs hh)
  simpa using this

theorem Rep.slot_inj {b : Buf α} {l p a} (r : Rep b l p a) {i j : Nat} {e e' : Nat × α} (hi : l[i]? = some e)
    (hj : l[j]? = some e') (h : e.1 = e'.1) : i = j := by
  have hn := r.nodup
  obtain ⟨h1, h2⟩ := List.getElem?_eq_some_iff.1 hi
  obtain ⟨h3, h4⟩ := List.getElem?_eq_some_iff.1 hj
  refine nodup_getElem_inj hn (i := i) (j := j) (by simpa) (by simpa) ?_
  simp [h2, h4, h]

/-- the free slot when there is room -/
theorem Rep.free {b : Buf α} {l p a} (r : Rep b l p a) (hlt : l.length < b.cap) :
    ∃ fs, Chain b.next b.free (b.free :: fs) b.cap ∧ (b.free :: fs ++ l.map (·.1)).Perm (List.range b.cap) ∧
      b.free ∉ l.map (·.1) ∧ b.free < b.cap := by
  obtain ⟨fs, h1, h2⟩ := r.chain
  cases fs with
  | nil =>
    have := h2.length_eq
    simp at this
    omega
  | cons f fs =>
    obtain ⟨rfl, h3⟩ := h1
    have hn := h2.symm.nodup List.nodup_range
    refine ⟨fs, ⟨rfl, h3⟩, h2, ?_, ?_⟩
    · intro hm
      exact (List.nodup_cons.1 hn).1 (List.mem_append_right fs hm)
    · have := h2.mem_iff.1 (List.mem_cons_self (a := b.free) (l := fs ++ l.map (·.1)))
      simpa using this

theorem Rep.clear' (b : Buf α) (hc : 0 < b.cap) : Rep b.clear [] true true := by
  refine ⟨rfl, hc, fun i => by simp [Buf.clear], by simp, by simp [Buf.clear], by simp, by simp, ?_⟩
  refine ⟨List.range' 0 b.cap, ?_, by simp [Buf.clear, List.range_eq_range']⟩
  have := chain_fresh b.cap 0 b.cap (by omega)
  simpa [Buf.clear] using this

theorem Rep.init {cap : Nat} (hc : 0 < cap) : Rep (Buf.init cap : Buf α) [] true true := Rep.clear' _ hc

theorem Rep.congr_inf {b : Buf α} {l p a} (r : Rep b l p a) (g : Nat → Nat) : Rep (b.makeInfinite g) l p a :=
  ⟨r.n, r.pos, r.map, r.data, r.valid, r.pidx, r.amap, r.chain⟩

/-- growing needs the address map -/
theorem Rep.resize {b : Buf α} {l p} (r : Rep b l p true) (hg : ∀ c, c < b.grow c) :
    Rep b.resize l (p && decide (l.length < b.cap)) true := by
  have hle := r.le
  unfold Buf.resize Buf.numFree
  split
  · rename_i h
    have : l.length < b.cap := by have := r.n; omega
    simp only [this, decide_true, Bool.and_true]
    exact r
  · rename_i h
    have hl : l.length = b.cap := by have := r.n; omega
    have hgc := hg b.cap
    obtain ⟨fs, _, h2⟩ := r.chain
    have hfs : fs = [] := by
      have := h2.length_eq
      simp at this
      exact List.eq_nil_of_length_eq_zero (by omega)
    subst hfs
    refine ⟨r.n, by show 0 < b.grow b.cap; omega, ?_, r.data, r.valid, ?_, r.amap, ?_⟩
    · intro i
      show (if i < b.n then some (b.amap i) else b.map i) = _
      split
      · rename_i hi
        rw [r.n] at hi
        rw [List.getElem?_eq_getElem hi, r.amap rfl i l[i] (List.getElem?_eq_getElem hi)]; rfl
      · exact r.map i
    · intro hp
      simp [hl] at hp
    · refine ⟨List.range' b.cap (b.grow b.cap - b.cap), ?_, ?_⟩
      · have := chain_fresh (b.grow b.cap) b.cap (b.grow b.cap - b.cap) (by omega)
        rw [show b.cap + (b.grow b.cap - b.cap) = b.grow b.cap by omega] at this
        show Chain (chainNext (b.grow b.cap)) b.n _ (b.grow b.cap)
        rw [r.n, hl]; exact this
      · show (List.range' b.cap (b.grow b.cap - b.cap) ++ l.map (·.1)).Perm (List.range (b.grow b.cap))
        have e : List.range (b.grow b.cap) = List.range b.cap ++ List.range' b.cap (b.grow b.cap - b.cap) := by
          rw [List.range_eq_range', List.range_eq_range']
          have h := List.range'_append (s := 0) (m := b.cap) (n := b.grow b.cap - b.cap) (step := 1)
          simp only [Nat.one_mul, Nat.zero_add] at h
          rw [h, show b.cap + (b.grow b.cap - b.cap) = b.grow b.cap by omega]
        rw [e]
        exact List.perm_append_comm.trans (List.Perm.append_right _ (by simpa using h2))

/-- adding at a position when there is room -/
theorem Rep.insertAt {b : Buf α} {l p a} (r : Rep b l p a) (idx : Nat) (x : α) (hlt : l.length < b.cap) (hi : idx ≤ l.length)
    (b' : Buf α) (hcap : b'.cap = b.cap) (hn : b'.n = b.n + 1)
    (hmap : ∀ j, b'.map j = if j = idx then some b.free else if idx < j ∧ j ≤ b.n then b.map (j - 1) else b.map j)
    (hdata : b'.data = upd b.data b.free (some x)) (hvalid : b'.valid = upd b.valid b.free true)
    (hpidx : p = true → b'.pidx b.free = idx ∧ ∀ i e, l[i]? = some e → b'.pidx e.1 = if idx ≤ i then i + 1 else i)
    (hnext : b'.next = b.next) (hfree : b'.free = b.next b.free)
    (hamap : ∀ j, j < b.n → idx = b.n → b'.amap j = b.amap j) (hamap' : idx = b.n → b'.amap idx = b.free) :
    Rep b' (l.insertIdx idx (b.free, x)) p (a && decide (idx = l.length)) := by
  obtain ⟨fs, h1, h2, h3, h4⟩ := r.free hlt
  have hget := fun j => @List.getElem?_insertIdx _ l (b.free, x) idx j
  refine ⟨?_, by rw [hcap]; exact r.pos, ?_, ?_, ?_, ?_, ?_, ?_⟩
  · rw [hn, r.n, List.length_insertIdx_of_le_length hi]
  · intro j
    rw [hmap, hget]
    by_cases hj : j = idx
    · subst hj; simp [hi]
    · by_cases hlt' : j < idx
      · rw [if_neg hj, if_pos hlt', if_neg (by omega), r.map]
      · rw [if_neg hj, if_neg hlt', if_neg hj]
        by_cases hle : j ≤ b.n
        · rw [if_pos (by omega), r.map]
        · rw [if_neg (by omega), r.map]
          have := r.n
          rw [List.getElem?_eq_none (by omega), List.getElem?_eq_none (by omega)]
  · intro e he
    rw [List.mem_insertIdx hi] at he
    rw [hdata]
    rcases he with rfl | he
    · simp
    · rw [upd_other]
      · exact r.data e he
      · intro hc
        exact h3 (hc ▸ List.mem_map.2 ⟨e, he, rfl⟩)
  · intro h
    rw [hvalid, map_insertIdx, List.mem_insertIdx (by simpa using hi)]
    by_cases hh : h = b.free
    · subst hh; simp
    · rw [upd_other _ _ hh, r.valid]
      simp [hh]
  · intro hp j e he
    obtain ⟨q1, q2⟩ := hpidx hp
    rw [hget] at he
    split at he
    · rename_i hj
      rw [q2 j e he, if_neg (by omega)]
    · split at he
      · rename_i hj
        subst hj
        rw [if_pos hi] at he
        cases he
        exact q1
      · rw [q2 (j - 1) e he, if_pos (by omega)]; omega
  · intro ha j e he
    simp at ha
    obtain ⟨ha, hidx⟩ := ha
    have hidx' : idx = b.n := by rw [r.n]; exact hidx
    rw [hget] at he
    split at he
    · rename_i hj
      rw [hamap j (by omega) hidx']
      exact r.amap ha j e he
    · split at he
      · rename_i hj
        subst hj
        rw [if_pos hi] at he
        cases he
        exact hamap' hidx'
      · rw [List.getElem?_eq_none (by omega)] at he
        cases he
  · refine ⟨fs, ?_, ?_⟩
    · rw [hnext, hfree, hcap]; exact h1.2
    · rw [hcap, map_insertIdx]
      have := (insertIdx_perm (l.map (·.1)) b.free (i := idx) (by simpa using hi))
      exact ((List.Perm.append_left fs this).trans List.perm_middle).trans h2

theorem Buf.prepare_fixed (b : Buf α) (hf : b.inf = false) : b.prepare = b := by simp [Buf.prepare, hf]

theorem Rep.pushBack {b0 b : Buf α} (hb : b0.prepare = b) {l p a} (r : Rep b l p a) (x : α) :
    if l.length = b.cap then b0.pushBack x = (b, none)
    else ∃ b', b0.pushBack x = (b', some b.free) ∧ Rep b' (l.insertIdx l.length (b.free, x)) p a ∧ b'.inf = b.inf ∧
      b'.cap = b.cap ∧ b'.grow = b.grow := by
  have hle := r.le
  have hn := r.n
  unfold Buf.pushBack
  rw [hb]
  have hnf : b.numFree = b.cap - b.n := rfl
  simp only
  split
  · rw [if_pos (by rw [hnf]; omega)]
  · rename_i hne
    rw [if_neg (by rw [hnf]; omega)]
    refine ⟨_, rfl, ?_, rfl, rfl, rfl⟩
    obtain ⟨_, _, _, h3, _⟩ := r.free (by omega)
    have := r.insertAt l.length x (by omega) (Nat.le_refl _) { b with data := upd b.data b.free (some x), pidx := upd b.pidx b.free b.n, map := upd b.map b.n (some b.free), amap := upd b.amap b.n b.free, valid := upd b.valid b.free true, n := b.n + 1, free := b.next b.free }
      rfl rfl ?_ rfl rfl ?_ rfl rfl ?_ ?_
    · simpa using this
    · intro j
      simp only [hn]
      by_cases hj : j = l.length
      · subst hj; simp
      · rw [upd_other _ _ hj, if_neg hj, if_neg (by omega)]
    · intro hp
      refine ⟨by simp [hn], ?_⟩
      intro i e he
      have : i < l.length := (List.getElem?_eq_some_iff.1 he).1
      rw [if_neg (by omega), ← r.pidx hp i e he]
      exact upd_other _ _ (fun hc => h3 (hc ▸ List.mem_map.2 ⟨e, List.mem_of_getElem? he, rfl⟩))
    · intro j hj _
      exact upd_other _ _ (by omega)
    · intro _; simp [hn]

theorem Rep.insert {b0 b : Buf α} (hb : b0.prepare = b) {l p a} (r : Rep b l p a) (idx : Nat) (x : α) :
    if l.length = b.cap ∨ l.length < idx then b0.insert idx x = (b, none)
    else ∃ b', b0.insert idx x = (b', some b.free) ∧ Rep b' (l.insertIdx idx (b.free, x)) p (a && decide (idx = l.length)) ∧
      b'.inf = b.inf ∧ b'.cap = b.cap ∧ b'.grow = b.grow := by
  have hle := r.le
  have hn := r.n
  unfold Buf.insert
  rw [hb]
  have hnf : b.numFree = b.cap - b.n := rfl
  simp only
  split
  · rw [if_pos (by rw [hnf]; omega)]
  · rename_i hne
    rw [if_neg (by rw [hnf]; omega)]
    obtain ⟨_, _, _, h3, _⟩ := r.free (by omega)
    obtain ⟨pm, e, h1, h2⟩ := insertLoop_spec { b with data := upd b.data b.free (some x), pidx := upd b.pidx b.free idx, valid := upd b.valid b.free true } (b.n - idx) b.n (by omega)
    rw [e]
    simp only [show b.n - (b.n - idx) = idx by omega] at h1 h2 ⊢
    refine ⟨_, rfl, ?_, rfl, rfl, rfl⟩
    refine r.insertAt idx x (by omega) (by omega) _ rfl rfl ?_ rfl rfl ?_ rfl rfl ?_ ?_
    · intro j
      simp only
      by_cases hj : j = idx
      · subst hj; simp
      · rw [upd_other _ _ hj, if_neg hj]
    · intro hp
      simp only
      constructor
      · rw [h1 b.free ?_]
        · simp
        · intro j h4 h5 h6
          rw [r.map] at h6
          cases hj : l[j - 1]? with
          | none => simp [hj] at h6
          | some e' =>
            simp [hj] at h6
            exact h3 (List.mem_map.2 ⟨e', List.mem_of_getElem? hj, h6⟩)
      · intro i e' he
        have hil : i < l.length := (List.getElem?_eq_some_iff.1 he).1
        have hfr : e'.1 ≠ b.free := fun hc => h3 (hc ▸ List.mem_map.2 ⟨e', List.mem_of_getElem? he, rfl⟩)
        by_cases hii : idx ≤ i
        · rw [if_pos hii]
          refine h2 (i + 1) e'.1 (by omega) (by omega) ?_ ?_
          · rw [r.map, Nat.add_sub_cancel, he]; rfl
          · intro j' h7 h8 h9
            rw [r.map] at h9
            cases hj : l[j' - 1]? with
            | none => simp [hj] at h9
            | some e'' =>
              simp [hj] at h9
              have := r.slot_inj hj he h9
              omega
        · rw [if_neg hii, h1 e'.1 ?_]
          · show upd b.pidx b.free idx e'.1 = i
            rw [upd_other _ _ hfr]; exact r.pidx hp i e' he
          · intro j h7 h8 h9
            rw [r.map] at h9
            cases hj : l[j - 1]? with
            | none => simp [hj] at h9
            | some e'' =>
              simp [hj] at h9
              have := r.slot_inj hj he h9
              omega
    · intro j hj hidx
      simp only
      rw [upd_other _ _ (by omega), if_neg (by omega)]
    · intro hidx
      simp [hidx]

theorem Rep.erase {b : Buf α} {l p a} (r : Rep b l p a) (idx : Nat) :
    if h : idx < l.length then ∃ b', b.erase idx = some b' ∧ Rep b' (l.eraseIdx idx) p a ∧ b'.inf = b.inf ∧ b'.cap = b.cap ∧
      b'.grow = b.grow ∧ b'.pidx l[idx].1 = b.pidx l[idx].1
    else b.erase idx = none := by
  have hn := r.n
  split
  · rename_i h
    have hm : b.map idx = some l[idx].1 := by rw [r.map, List.getElem?_eq_getElem h]; rfl
    obtain ⟨pm, e, h1, h2⟩ := eraseLoop_spec { b with free := l[idx].1, data := upd b.data l[idx].1 none, next := upd b.next l[idx].1 b.free, valid := upd b.valid l[idx].1 false } (b.n - 1 - idx) idx
    unfold Buf.erase
    rw [if_pos (by omega), hm]
    simp only
    rw [e]
    refine ⟨_, rfl, ?_, rfl, rfl, rfl, ?_⟩
    rotate_left
    · simp only
      apply h1
      intro j h3 h4 h5
      rw [r.map] at h5
      cases hj : l[j + 1]? with
      | none => simp [hj] at h5
      | some e' =>
        simp [hj] at h5
        have := r.slot_inj hj (List.getElem?_eq_getElem h) h5
        omega
    have hget := fun j => @List.getElem?_eraseIdx _ l idx j
    have hnd := r.nodup
    have hne : ∀ e' ∈ l.eraseIdx idx, e'.1 ≠ l[idx].1 := by
      intro e' he' hc
      obtain ⟨j, hj⟩ := List.mem_iff_getElem?.1 he'
      rw [hget] at hj
      split at hj
      · have := r.slot_inj hj (List.getElem?_eq_getElem h) hc; omega
      · have := r.slot_inj hj (List.getElem?_eq_getElem h) hc; omega
    refine ⟨?_, r.pos, ?_, ?_, ?_, ?_, ?_, ?_⟩
    · simp only; rw [List.length_eraseIdx_of_lt h]; omega
    · intro j
      simp only
      rw [hget]
      by_cases hj : j = b.n - 1
      · subst hj
        rw [upd_same]
        rw [if_neg (by omega), List.getElem?_eq_none (by omega)]; rfl
      · rw [upd_other _ _ hj]
        by_cases hj1 : j < idx
        · rw [if_pos hj1, if_neg (by omega), r.map]
        · rw [if_neg hj1]
          by_cases hj2 : j < b.n - 1
          · rw [if_pos (by omega), r.map]
          · rw [if_neg (by omega), r.map, List.getElem?_eq_none (by omega), List.getElem?_eq_none (by omega)]
    · intro e' he'
      simp only
      rw [upd_other _ _ (hne e' he')]
      exact r.data e' (List.mem_of_mem_eraseIdx he')
    · intro h'
      simp only
      have hp := eraseIdx_perm l h
      have hp' : (l[idx].1 :: (l.eraseIdx idx).map (·.1)).Perm (l.map (·.1)) := hp.map _
      by_cases hh : h' = l[idx].1
      · subst hh
        rw [upd_same]
        constructor
        · intro hc; cases hc
        · intro hc
          obtain ⟨e', he', hc'⟩ := List.mem_map.1 hc
          exact absurd hc' (hne e' he')
      · rw [upd_other _ _ hh, r.valid, ← hp'.mem_iff]
        simp [hh]
    · intro hpp j e' he'
      simp only
      have hjl : j < l.length - 1 := by
        have := (List.getElem?_eq_some_iff.1 he').1
        rwa [List.length_eraseIdx_of_lt h] at this
      rw [hget] at he'
      split at he'
      · rename_i hj
        rw [h1 e'.1 ?_]
        · exact r.pidx hpp j e' he'
        · intro j' h3 h4 h5
          rw [r.map] at h5
          cases hj' : l[j' + 1]? with
          | none => simp [hj'] at h5
          | some e'' =>
            simp [hj'] at h5
            have := r.slot_inj hj' he' h5
            omega
      · rename_i hj
        refine h2 j e'.1 (by omega) (by omega) ?_ ?_
        · rw [r.map, he']; rfl
        · intro j' h3 h4 h5
          rw [r.map] at h5
          cases hj' : l[j' + 1]? with
          | none => simp [hj'] at h5
          | some e'' =>
            simp [hj'] at h5
            have := r.slot_inj hj' he' h5
            omega
    · intro ha j e' he'
      simp only
      have hjl : j < l.length - 1 := by
        have := (List.getElem?_eq_some_iff.1 he').1
        rwa [List.length_eraseIdx_of_lt h] at this
      rw [hget] at he'
      split at he'
      · rw [if_neg (by omega)]; exact r.amap ha j e' he'
      · rw [if_pos (by omega)]; exact r.amap ha (j + 1) e' he'
    · obtain ⟨fs, h3, h4⟩ := r.chain
      have hnf : l[idx].1 ∉ fs := by
        intro hc
        have := List.nodup_append.1 (h4.symm.nodup List.nodup_range)
        exact this.2.2 _ hc l[idx].1 (List.mem_map.2 ⟨l[idx], List.getElem_mem h, rfl⟩) rfl
      refine ⟨l[idx].1 :: fs, ⟨rfl, ?_⟩, ?_⟩
      · simp only [upd_same]
        exact h3.congr (fun x hx => upd_other _ _ (fun hc => hnf (hc ▸ hx)))
      · have hp := eraseIdx_perm l h
        have hp' : (l[idx].1 :: (l.eraseIdx idx).map (·.1)).Perm (l.map (·.1)) := hp.map _
        exact ((List.perm_middle (l₁ := fs)).symm.trans (List.Perm.append_left fs hp')).trans h4
  · unfold Buf.erase
    rw [if_neg (by omega)]

theorem map_snd_insertIdx (l : List (Nat × α)) (i h : Nat) (x : α) :
    (l.insertIdx i (h, x)).map (·.2) = (l.map (·.2)).insertIdx i x := map_insertIdx _ _ _ _

theorem Rep.read {b : Buf α} {l p a} (r : Rep b l p a) (i : Nat) : b.read i = (l.map (·.2))[i]? := by
  unfold Buf.read
  rw [r.n, r.map]
  split
  · rename_i h
    rw [List.getElem?_eq_getElem h, List.getElem?_eq_getElem (by simpa using h)]
    simp [r.data _ (List.getElem_mem h)]
  · rename_i h
    rw [List.getElem?_eq_none (by simpa using h)]

/-- relation of a Buffer to a bounded list; with a growing capacity the address map has to be right -/
def Sim (b : Buf α) (s : Bounded α) : Prop :=
  ∃ l p a, Rep b l p a ∧ l.map (·.2) = s.l ∧ b.cap = s.cap ∧
    ((b.inf = false ∧ s.grow = none) ∨ (b.inf = true ∧ s.grow = some b.grow ∧ a = true ∧ ∀ c, c < b.grow c))

/-- with a growing capacity items are only inserted at the end -/
def AtEnd (s : Bounded α) : Op α → Prop
  | .insert i _ => s.grow = none ∨ s.l.length ≤ i
  | _ => True

theorem Sim.room {b : Buf α} {s : Bounded α} (h : Sim b s) : Sim b.prepare s.room ∧ s.room.l = s.l := by
  obtain ⟨l, p, a, r, h1, h2, h3⟩ := h
  rcases h3 with ⟨h3, h4⟩ | ⟨h3, h4, h5, h6⟩
  · have e : s.room = s := by simp [Bounded.room, h4]
    rw [b.prepare_fixed h3, e]
    exact ⟨⟨l, p, a, r, h1, h2, Or.inl ⟨h3, h4⟩⟩, rfl⟩
  · subst h5
    have hl : s.l.length = l.length := by rw [← h1]; simp
    have hn := r.n
    have hle := r.le
    have e : b.prepare = b.resize := by simp [Buf.prepare, h3]
    have r' := r.resize h6
    rw [e]
    have hg : b.resize.grow = b.grow := by unfold Buf.resize; split <;> rfl
    have hi : b.resize.inf = true := by unfold Buf.resize; split <;> exact h3
    by_cases hf : s.l.length = s.cap
    · have e2 : s.room = { s with cap := b.grow s.cap } := by simp [Bounded.room, h4, hf]
      rw [e2]
      refine ⟨⟨l, _, true, r', h1, ?_, Or.inr ⟨hi, by rw [hg]; exact h4, rfl, by rw [hg]; exact h6⟩⟩, rfl⟩
      unfold Buf.resize Buf.numFree
      rw [if_neg (by omega)]
      show b.grow b.cap = b.grow s.cap
      rw [h2]
    · have e2 : s.room = s := by simp [Bounded.room, h4, hf]
      rw [e2]
      refine ⟨⟨l, _, true, r', h1, ?_, Or.inr ⟨hi, by rw [hg]; exact h4, rfl, by rw [hg]; exact h6⟩⟩, rfl⟩
      unfold Buf.resize Buf.numFree
      rw [if_pos (by omega)]
      exact h2

theorem Sim.step {b : Buf α} {s : Bounded α} (h : Sim b s) (o : Op α) (ho : AtEnd s o) :
    Sim (b.step o).1 (s.step o).1 ∧ (b.step o).2 = (s.step o).2 := by
  cases o with
  | push x =>
    obtain ⟨hr, hroom⟩ := h.room
    have hr' := hr
    obtain ⟨l, p, a, r, h1, h2, h3⟩ := hr
    have hl : s.room.l.length = l.length := by rw [← h1]; simp
    have hp := r.pushBack rfl x
    simp only [Buf.step, Bounded.step]
    by_cases hc : l.length = b.prepare.cap
    · rw [if_pos hc] at hp
      rw [if_pos (by omega), hp]
      exact ⟨hr', rfl⟩
    · rw [if_neg hc] at hp
      rw [if_neg (by omega)]
      obtain ⟨b', e, r', e1, e2, e3⟩ := hp
      rw [e]
      refine ⟨⟨_, p, a, r', ?_, e2.trans h2, ?_⟩, rfl⟩
      · rw [map_snd_insertIdx, h1, hroom]
        rw [hroom] at hl
        show s.l.insertIdx l.length x = s.l ++ [x]
        rw [← hl, List.insertIdx_length_self]
      · rw [e1, e3]; exact h3
  | insert i x =>
    obtain ⟨hr, hroom⟩ := h.room
    have hr' := hr
    obtain ⟨l, p, a, r, h1, h2, h3⟩ := hr
    have hl : s.room.l.length = l.length := by rw [← h1]; simp
    have hl' : s.l.length = l.length := by rw [← hroom]; exact hl
    have hp := r.insert rfl i x
    simp only [Buf.step, Bounded.step]
    by_cases hc : l.length = b.prepare.cap ∨ l.length < i
    · rw [if_pos hc] at hp
      rw [if_pos (by omega), hp]
      exact ⟨hr', rfl⟩
    · rw [if_neg hc] at hp
      rw [if_neg (by omega)]
      obtain ⟨b', e, r', e1, e2, e3⟩ := hp
      rw [e]
      refine ⟨⟨_, p, _, r', ?_, e2.trans h2, ?_⟩, rfl⟩
      · rw [map_snd_insertIdx, h1, hroom]
      · rw [e1, e3]
        rcases h3 with h3 | ⟨h3, h4, h5, h6⟩
        · exact Or.inl h3
        · right
          refine ⟨h3, h4, ?_, h6⟩
          rcases ho with ho | ho
          · have : s.room.grow = none := by simp [Bounded.room, ho]
            rw [h4] at this; cases this
          · simp [h5]; omega
  | erase i =>
    obtain ⟨l, p, a, r, h1, h2, h3⟩ := h
    have hl : s.l.length = l.length := by rw [← h1]; simp
    have he := r.erase i
    simp only [Buf.step, Bounded.step]
    by_cases hc : i < l.length
    · rw [dif_pos hc] at he
      obtain ⟨b', e, r', e1, e2, e3, _⟩ := he
      rw [e, if_pos (by omega)]
      refine ⟨⟨_, p, a, r', ?_, e2.trans h2, by rw [e1, e3]; exact h3⟩, rfl⟩
      rw [map_eraseIdx, h1]
    · rw [dif_neg hc] at he
      rw [he, if_neg (by omega)]
      exact ⟨⟨l, p, a, r, h1, h2, h3⟩, rfl⟩
  | clear =>
    obtain ⟨l, p, a, r, h1, h2, h3⟩ := h
    refine ⟨⟨[], true, true, Rep.clear' b r.pos, rfl, h2, ?_⟩, rfl⟩
    rcases h3 with h3 | ⟨h3, h4, h5, h6⟩
    · exact Or.inl h3
    · exact Or.inr ⟨h3, h4, rfl, h6⟩
  | read i =>
    refine ⟨h, ?_⟩
    obtain ⟨l, p, a, r, h1, h2, h3⟩ := h
    simp only [Buf.step, Bounded.step, r.read, h1]
    cases s.l[i]? <;> rfl
  | size =>
    refine ⟨h, ?_⟩
    obtain ⟨l, p, a, r, h1, h2, h3⟩ := h
    simp only [Buf.step, Bounded.step, r.n, ← h1, List.length_map]
  | numFree =>
    refine ⟨h, ?_⟩
    obtain ⟨l, p, a, r, h1, h2, h3⟩ := h
    simp only [Buf.step, Bounded.step, Buf.numFree, r.n, ← h1, List.length_map, h2]

end Sparta.Buffer
