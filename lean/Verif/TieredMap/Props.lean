import Verif.TieredMap.Lemmas
namespace Sparta.TieredMap
variable {V : Type}

/-- the tree stores the positions of the pairs -/
structure Shape (b n : Nat) (s : Map V) : Prop where
  size : s.nodeSize = 2 ^ b
  shift : s.shift = b
  mask : s.mask = 2 ^ b - 1
  pos : 0 < b
  shifts : s.shifts = shiftsOf b (n + 1)
  top : b * n < 64
  wf : WF (n + 1) s.root
  get : ∀ k, k < 2 ^ (b * (n + 1)) → G b (n + 1) k s.root = some (s.pairs.findIdx? (fun e => e.1 = k))
  keys : ∀ e ∈ s.pairs, e.1 < 2 ^ (b * (n + 1))

theorem top_eq {b n : Nat} {s : Map V} (h : Shape b n s) : topShift s = b * n := by
  unfold topShift; rw [h.shifts]; rfl

theorem fits {b n k : Nat} : 2 ^ b ≤ k >>> (b * n) ↔ 2 ^ (b * (n + 1)) ≤ k := by
  rw [Nat.shiftRight_eq_div_pow, Nat.le_div_iff_mul_le (Nat.pow_pos (by omega)), ← Nat.pow_add, Nat.mul_succ, Nat.add_comm]

theorem absent {s : Map V} {m k : Nat} (h : ∀ e ∈ s.pairs, e.1 < m) (hk : m ≤ k) : s.pairs.findIdx? (fun e => e.1 = k) = none := by
  rw [List.findIdx?_eq_none_iff]
  intro e he
  have := h e he
  simp; omega

theorem tryGet_eq {b n : Nat} {s : Map V} (h : Shape b n s) (k : Nat) : tryGet s k = some (s.pairs.findIdx? (fun e => e.1 = k)) := by
  unfold tryGet
  rw [top_eq h, if_neg (by have := h.top; omega), h.size]
  by_cases hk : 2 ^ b ≤ k >>> (b * n)
  · rw [if_pos hk, absent h.keys (fits.mp hk)]
  · rw [if_neg hk]
    have := h.get k (by rw [fits] at hk; omega)
    unfold G at this
    rw [h.mask, h.shifts]
    exact this

theorem shape_addTier {b n : Nat} {s : Map V} (h : Shape b n s) (ht : b * (n + 1) < 64) : Shape b (n + 1) (addTier s) := by
  constructor
  · exact h.size
  · exact h.shift
  · exact h.mask
  · exact h.pos
  · show (topShift s + s.shift) :: s.shifts = _
    rw [top_eq h, h.shift, h.shifts, ← Nat.mul_succ]; rfl
  · exact ht
  · refine ⟨[s.root], rfl, fun d => ?_⟩
    cases d with
    | zero => exact Or.inr h.wf
    | succ d => exact Or.inl rfl
  · intro k hk
    show G b (n + 1 + 1) k (.node [s.root]) = some (s.pairs.findIdx? _)
    rw [G_node b (n + 1) k _ ht]
    have hd : digit b (n + 1) k = k / 2 ^ (b * (n + 1)) := by
      unfold digit
      apply Nat.mod_eq_of_lt
      rw [Nat.div_lt_iff_lt_mul (Nat.pow_pos (by omega)), ← Nat.pow_add, Nat.add_comm, ← Nat.mul_succ]
      exact hk
    rw [hd]
    by_cases hz : k < 2 ^ (b * (n + 1))
    · rw [Nat.div_eq_of_lt hz]
      show (if s.root = .null then _ else G b (n + 1) k s.root) = _
      rw [if_neg (WF_ne_null h.wf), h.get k hz]
    · have hp : 0 < k / 2 ^ (b * (n + 1)) := Nat.div_pos (by omega) (Nat.pow_pos (by omega))
      obtain ⟨m, hm⟩ : ∃ m, k / 2 ^ (b * (n + 1)) = m + 1 := ⟨_, (Nat.succ_pred_eq_of_pos hp).symm⟩
      rw [hm, absent h.keys (by omega)]
      rfl
  · intro e he
    have := h.keys e he
    have : 2 ^ (b * (n + 1)) ≤ 2 ^ (b * (n + 1 + 1)) := Nat.pow_le_pow_right (by omega) (Nat.mul_le_mul_left _ (by omega))
    omega

theorem grow_spec {b n : Nat} {s : Map V} (h : Shape b n s) (k : Nat) (hk : k < 2 ^ 64) (fuel : Nat) (hf : 64 < fuel + n) :
    ∃ s' n', grow fuel s k = some s' ∧ Shape b n' s' ∧ s'.pairs = s.pairs ∧ k < 2 ^ (b * (n' + 1)) ∧ n ≤ n' ∧
      (n < n' → 2 ^ (b * n') ≤ k) := by
  induction fuel generalizing n s with
  | zero =>
    have := h.top
    have : 1 * n ≤ b * n := Nat.mul_le_mul_right _ h.pos
    omega
  | succ fuel ih =>
    unfold grow
    rw [top_eq h, if_neg (by have := h.top; omega), h.size]
    by_cases hc : 2 ^ b ≤ k >>> (b * n)
    · rw [if_pos hc]
      have hge := fits.mp hc
      have ht : b * (n + 1) < 64 := by
        apply Nat.lt_of_not_le
        intro hle
        have : 2 ^ 64 ≤ 2 ^ (b * (n + 1)) := Nat.pow_le_pow_right (by omega) hle
        omega
      obtain ⟨s', n', h1, h2, h3, h4, h5, h6⟩ := ih (shape_addTier h ht) (by omega)
      refine ⟨s', n', h1, h2, h3, h4, by omega, fun _ => ?_⟩
      by_cases hn : n + 1 < n'
      · exact h6 hn
      · have : n' = n + 1 := by omega
        rw [this]; exact hge
    · rw [if_neg hc]
      exact ⟨s, n, rfl, h, rfl, by rw [fits] at hc; omega, Nat.le_refl _, fun hlt => by omega⟩

/-- state and finite map agree -/
structure Rep (b : Nat) (s : Map V) (t : List (Nat × V)) : Prop where
  pairs : s.pairs = t
  nodup : (t.map (·.1)).Nodup
  shape : ∃ n, Shape b n s ∧ (0 < n → ∃ e ∈ t, 2 ^ (b * n) ≤ e.1)

theorem find_lookup (t : List (Nat × V)) (k : Nat) : lookup t k = (t.findIdx? (fun e => e.1 = k)).bind (fun i => t[i]?) := by
  unfold lookup
  induction t with
  | nil => rfl
  | cons e t ih =>
    rw [List.find?_cons, List.findIdx?_cons]
    by_cases h : e.1 = k
    · simp [h]
    · simp only [h, decide_false, Bool.false_eq_true, if_false, ih]
      cases hq : t.findIdx? (fun e => decide (e.1 = k)) <;> simp

theorem map_modify_key (t : List (Nat × V)) (i : Nat) (v : V) : (t.modify i (fun e => (e.1, v))).map (·.1) = t.map (·.1) := by
  apply List.ext_getElem?
  intro j
  rw [List.getElem?_map, List.getElem?_map, List.getElem?_modify]
  rcases t[j]? with _ | e
  · rfl
  · simp; split <;> rfl

theorem findIdx_congr {t t' : List (Nat × V)} (h : t'.map (·.1) = t.map (·.1)) (k : Nat) :
    t'.findIdx? (fun e => decide (e.1 = k)) = t.findIdx? (fun e => decide (e.1 = k)) := by
  have key : ∀ t : List (Nat × V), t.findIdx? (fun e => decide (e.1 = k)) = (t.map (·.1)).findIdx? (fun x => decide (x = k)) := by
    intro t; rw [List.findIdx?_map]; rfl
  rw [key, key, h]

theorem mem_congr {t t' : List (Nat × V)} (h : t'.map (·.1) = t.map (·.1)) {e : Nat × V} (he : e ∈ t') : ∃ e' ∈ t, e'.1 = e.1 := by
  have : e.1 ∈ t'.map (·.1) := List.mem_map_of_mem he
  rw [h] at this
  obtain ⟨e', h1, h2⟩ := List.mem_map.mp this
  exact ⟨e', h1, h2⟩

/-- replacing values keeps the shape -/
theorem shape_values {b n : Nat} {s : Map V} (h : Shape b n s) (ps : List (Nat × V)) (hp : ps.map (·.1) = s.pairs.map (·.1)) :
    Shape b n { s with pairs := ps } := by
  constructor
  · exact h.size
  · exact h.shift
  · exact h.mask
  · exact h.pos
  · exact h.shifts
  · exact h.top
  · exact h.wf
  · intro k hk
    show _ = some (ps.findIdx? _)
    rw [findIdx_congr hp k]
    exact h.get k hk
  · intro e he
    obtain ⟨e', h1, h2⟩ := mem_congr hp he
    rw [← h2]; exact h.keys e' h1

theorem rep_values {b : Nat} {s : Map V} {t : List (Nat × V)} (h : Rep b s t) (ps : List (Nat × V)) (hp : ps.map (·.1) = t.map (·.1)) :
    Rep b { s with pairs := ps } ps := by
  obtain ⟨h1, h2, n, h3, h4⟩ := h
  refine ⟨rfl, by rw [hp]; exact h2, n, shape_values h3 ps (by rw [hp, h1]), fun hn => ?_⟩
  obtain ⟨e, he, hle⟩ := h4 hn
  obtain ⟨e', a, b'⟩ := mem_congr hp.symm he
  exact ⟨e', a, by rw [b']; exact hle⟩

theorem index_spec {b : Nat} {s : Map V} {t : List (Nat × V)} (h : Rep b s t) (zero : V) (k : Nat) (hk : k < 2 ^ 64) :
    ∃ s' i, index zero 65 s k = some (s', i) ∧
      ((t.findIdx? (fun e => e.1 = k) = some i ∧ Rep b s' t) ∨
       (t.findIdx? (fun e => e.1 = k) = none ∧ i = t.length ∧ Rep b s' (t ++ [(k, zero)]))) := by
  have hrep := h
  obtain ⟨h1, h2, n, h3, h4⟩ := h
  unfold index
  rw [tryGet_eq h3, h1]
  cases hf : t.findIdx? (fun e => decide (e.1 = k)) with
  | some i => exact ⟨s, i, rfl, Or.inl ⟨rfl, hrep⟩⟩
  | none =>
    obtain ⟨s', n', g1, g2, g3, g4, g5, g6⟩ := grow_spec h3 k hk 65 (by omega)
    dsimp only
    unfold set
    rw [g1]
    dsimp only
    obtain ⟨p', i, q1, q2, q3, q4, q5⟩ := setLoop_spec b k s'.pairs.length n' s'.root g2.wf g2.top
    rw [g2.mask, g2.shifts, q1]
    dsimp only
    have hi : i = s'.pairs.length := by
      rw [g2.get k g4, g3, h1, hf] at q3
      rcases q3 with ⟨_, q3⟩ | q3
      · rw [g3, h1]; exact q3
      · cases q3
    rw [if_pos hi]
    refine ⟨_, _, rfl, Or.inr ⟨rfl, by rw [hi, g3, h1], ?_⟩⟩
    rw [g3, h1]
    have hnot : k ∉ t.map (·.1) := by
      intro hm
      obtain ⟨e, he, hek⟩ := List.mem_map.mp hm
      rw [List.findIdx?_eq_none_iff] at hf
      have := hf e he
      simp [hek] at this
    refine ⟨rfl, ?_, n', ?_, ?_⟩
    · rw [List.map_append, List.nodup_append]
      refine ⟨h2, by simp, ?_⟩
      intro a ha c hc e
      simp at hc
      exact hnot (by rw [← hc, ← e]; exact ha)
    · constructor
      · exact g2.size
      · exact g2.shift
      · rfl
      · exact g2.pos
      · rfl
      · exact g2.top
      · exact q2
      · intro k' hk'
        show G b (n' + 1) k' p' = some ((t ++ [(k, zero)]).findIdx? _)
        rw [List.findIdx?_append]
        by_cases hkk : k' = k
        · subst hkk
          rw [q4, hf, hi, g3, h1]
          simp
        · rw [q5 k' (by rw [Nat.mod_eq_of_lt hk', Nat.mod_eq_of_lt g4]; exact hkk), g2.get k' hk', g3, h1]
          have : ¬ k = k' := fun e => hkk e.symm
          simp [this]
      · intro e he
        rcases List.mem_append.mp he with he | he
        · exact g2.keys e (by rw [g3, h1]; exact he)
        · simp at he; rw [he]; exact g4
    · intro hn'
      by_cases hlt : n < n'
      · exact ⟨(k, zero), by simp, g6 hlt⟩
      · have : n = n' := by omega
        subst this
        obtain ⟨e, he, hle⟩ := h4 hn'
        exact ⟨e, List.mem_append_left _ he, hle⟩

theorem modify_store (t : List (Nat × V)) (hn : (t.map (·.1)).Nodup) (k i : Nat) (v : V) (hi : t.findIdx? (fun e => e.1 = k) = some i) :
    t.modify i (fun e => (e.1, v)) = store t k v := by
  obtain ⟨hlt, hki, _⟩ := List.findIdx?_eq_some_iff_getElem.mp hi
  simp at hki
  have hs : (lookup t k).isSome := by rw [find_lookup, hi]; simp [hlt]
  unfold store
  rw [if_pos hs]
  apply List.ext_getElem?
  intro j
  rw [List.getElem?_modify, List.getElem?_map]
  rcases hj : t[j]? with _ | e
  · rfl
  · have hjl := (List.getElem?_eq_some_iff.mp hj)
    obtain ⟨hjl, hje⟩ := hjl
    have : i = j ↔ e.1 = k := by
      constructor
      · intro e'; subst e'; rw [← hje]; exact hki
      · intro he
        apply nodup_getElem_inj hn (by simpa using hlt) (by simpa using hjl)
        simp [hki, hje, he]
    by_cases hek : e.1 = k
    · simp [this.mpr hek, hek]
    · have hij : i ≠ j := fun e' => hek (this.mp e')
      simp [hek, hij]

theorem findIdx_of_snoc (t : List (Nat × V)) (k : Nat) (v : V) (h : t.findIdx? (fun e => e.1 = k) = none) :
    (t ++ [(k, v)]).findIdx? (fun e => e.1 = k) = some t.length := by
  rw [List.findIdx?_append, h]; simp

theorem rep_step (b : Nat) (zero : V) (s : Map V) (t : List (Nat × V)) (o : Op V) (h : Rep b s t) (hl : legal t o) :
    Rep b (step zero s o).1 (specStep zero t o).1 ∧ (step zero s o).2 = (specStep zero t o).2 := by
  cases o with
  | write k v =>
    obtain ⟨s', i, h1, h2⟩ := index_spec h zero k hl
    unfold step specStep
    simp only [h1]
    refine ⟨?_, trivial⟩
    rcases h2 with ⟨h2, h3⟩ | ⟨h2, hi, h3⟩
    · rw [h3.pairs, ← modify_store t h.nodup k i v h2]
      exact rep_values h3 _ (map_modify_key ..)
    · have e : (t ++ [(k, zero)]).modify i (fun e => (e.1, v)) = store t k v := by
        unfold store
        rw [if_neg (by rw [find_lookup, h2]; simp), hi]
        apply List.ext_getElem?
        intro j
        rw [List.getElem?_modify]
        by_cases hj : j < t.length
        · have : t.length ≠ j := by omega
          rw [List.getElem?_append_left hj, List.getElem?_append_left hj]
          simp [this]
        · by_cases hj' : j = t.length
          · subst hj'; simp
          · rw [List.getElem?_eq_none (by simp; omega), List.getElem?_eq_none (by simp; omega)]; rfl
      rw [h3.pairs, ← e]
      exact rep_values h3 _ (map_modify_key ..)
  | read k =>
    obtain ⟨s', i, h1, h2⟩ := index_spec h zero k hl
    unfold step specStep
    simp only [h1]
    rcases h2 with ⟨h2, h3⟩ | ⟨h2, hi, h3⟩
    · have hlt := (List.findIdx?_eq_some_iff_getElem.mp h2).1
      have hlo : lookup t k = some t[i] := by rw [find_lookup, h2]; simp [hlt]
      rw [hlo, h3.pairs]
      exact ⟨h3, by simp [hlt]⟩
    · have hlo : lookup t k = none := by rw [find_lookup, h2]; rfl
      rw [hlo, h3.pairs]
      refine ⟨h3, ?_⟩
      rw [hi]; simp
  | find k =>
    obtain ⟨h1, h2, n, h3, h4⟩ := h
    have hrep : Rep b s t := ⟨h1, h2, n, h3, h4⟩
    unfold step specStep
    dsimp only
    rw [tryGet_eq h3, h1, find_lookup]
    cases hf : t.findIdx? (fun e => decide (e.1 = k)) with
    | some i => exact ⟨hrep, rfl⟩
    | none => exact ⟨hrep, rfl⟩
  | clear =>
    obtain ⟨h1, h2, n, h3, h4⟩ := h
    refine ⟨⟨rfl, by simp [specStep], 0, ?_, by simp⟩, rfl⟩
    constructor
    · exact h3.size
    · exact h3.shift
    · exact h3.mask
    · exact h3.pos
    · rfl
    · simp
    · exact ⟨[], rfl, fun d => Or.inl rfl⟩
    · intro k _; exact G_empty b 0 k (by simp)
    · intro e he; cases he
  | size => exact ⟨h, by simp [step, specStep, h.pairs]⟩
  | iterate => exact ⟨h, by simp [step, specStep, h.pairs]⟩

theorem make_spec (b : Nat) (h0 : 0 < b) (h1 : b ≤ 30) : ∃ s, make V (2 ^ b) = some s ∧ Rep b s [] := by
  have hl : Nat.log2 (2 ^ b) = b := Nat.log2_two_pow
  have hp : 2 ^ b ≤ 2 ^ 30 := Nat.pow_le_pow_right (by omega) h1
  have hpos : 0 < 2 ^ b := Nat.pow_pos (by omega)
  unfold make computeMask
  rw [if_pos (show 1 ≤ 2 ^ b from hpos), hl, if_pos rfl, if_pos (by omega)]
  refine ⟨_, rfl, rfl, by simp, 0, ?_, by simp⟩
  constructor
  · rfl
  · rfl
  · show 2 ^ 64 - 1 - (2 ^ 64 - 1 - (2 ^ b - 1)) = 2 ^ b - 1
    omega
  · exact h0
  · rfl
  · simp
  · exact ⟨[], rfl, fun d => Or.inl rfl⟩
  · intro k _; exact G_empty b 0 k (by simp)
  · intro e he; cases he

/-! ### the properties -/

/-- C34: for every node size 2^1 .. 2^30 a TieredMap answers every history of calls like a finite map that remembers the
order of insertion; no call fails -/
theorem C34_finite_map (zero : V) (b : Nat) (h0 : 0 < b) (h1 : b ≤ 30) :
    ∃ s, make V (2 ^ b) = some s ∧
      ∀ os, legalOps (specStep zero) legal [] os → (runOps (step zero) s os).2 = (runOps (specStep zero) [] os).2 := by
  obtain ⟨s, hs, hr⟩ := make_spec (V := V) b h0 h1
  exact ⟨s, hs, fun os hl => (runOps_simulation_legal (step zero) (specStep zero) legal (Rep b) (rep_step b zero) s [] hr os hl).2⟩

/-- C34: the number of tiers is the number of digits in base 2^b that the keys need -/
theorem C34_tiers (zero : V) (b : Nat) (h0 : 0 < b) (h1 : b ≤ 30) :
    ∃ s, make V (2 ^ b) = some s ∧
      ∀ os, legalOps (specStep zero) legal [] os →
        IsWidth b ((runOps (specStep zero) [] os).1.map (·.1)) (numTiers (runOps (step zero) s os).1) := by
  obtain ⟨s, hs, hr⟩ := make_spec (V := V) b h0 h1
  refine ⟨s, hs, fun os hl => ?_⟩
  obtain ⟨g1, g2, n, g3, g4⟩ :=
    (runOps_simulation_legal (step zero) (specStep zero) legal (Rep b) (rep_step b zero) s [] hr os hl).1
  have hlen : ∀ m, (shiftsOf b m).length = m := by
    intro m; induction m with
    | zero => rfl
    | succ m ih => simp [shiftsOf, ih]
  unfold numTiers
  rw [g3.shifts, hlen]
  refine ⟨by omega, ?_, ?_⟩
  · intro k hk
    obtain ⟨e, he, rfl⟩ := List.mem_map.mp hk
    exact g3.keys e (by rw [g1]; exact he)
  · intro hn
    obtain ⟨e, he, hle⟩ := g4 (by omega)
    exact ⟨e.1, List.mem_map_of_mem he, by rw [Nat.add_sub_cancel]; exact hle⟩

/-- C34: node sizes that are not powers of two are rejected -/
theorem C34_sizes (n : Nat) (h : ∀ b, n ≠ 2 ^ b) (h0 : n ≠ 0) : (make V n).isNone := by
  unfold make computeMask
  rw [if_pos (by omega), if_neg (h _)]
  rfl

example : make Nat (2 ^ 9) ≠ none ∧ legalOps (specStep 0) legal [] [Op.write 5 1, .write (2 ^ 63) 2, .read 7, .write 5 3, .find 5, .find 6, .iterate] ∧
    (runOps (specStep 0) [] [Op.write 5 1, .write (2 ^ 63) 2, .read 7, .write 5 3, .find 5, .find 6, .iterate]).2 =
      [.unit, .unit, .value (some 0), .unit, .pair (some (5, 3)), .pair none, .values [3, 2, 0]] := by
  refine ⟨?_, ?_, by decide⟩
  · obtain ⟨s, hs, _⟩ := make_spec (V := Nat) 9 (by omega) (by omega)
    rw [hs]; simp
  · simp [legalOps, legal]

/-- violation for node size 1: no key but 0 can ever be stored, the call never returns -/
theorem C34_size_one_violated (zero : V) (fuel : Nat) (k : Nat) (hk : 0 < k) :
    ∃ s, make V 1 = some s ∧ index zero fuel s k = none := by
  refine ⟨_, rfl, ?_⟩
  have hg : ∀ fuel (s : Map V), s.nodeSize = 1 → s.shift = 0 → s.shifts.headD 0 = 0 → grow fuel s k = none := by
    intro fuel
    induction fuel with
    | zero => intros; rfl
    | succ fuel ih =>
      intro s h1 h2 h3
      have ht : topShift s = 0 := h3
      unfold grow
      rw [ht, if_neg (by omega), h1, if_pos (by simp; omega)]
      exact ih _ h1 h2 (by show topShift s + s.shift = 0; rw [ht, h2])
  have ht : ∀ s : Map V, s.nodeSize = 1 → topShift s = 0 → tryGet s k = some none := by
    intro s h1 h2
    unfold tryGet
    rw [h2, if_neg (by omega), h1, if_pos (by simp; omega)]
  unfold index
  rw [ht _ rfl rfl]
  dsimp only
  unfold set
  rw [hg fuel _ rfl (show Nat.log2 1 = 0 by decide) rfl]

end Sparta.TieredMap
