import Verif.Common
import Verif.CtxCounter.Model
import Std.Data.String.ToNat
/-!
C247: contexts and their sum. C248: weighted averages and maxima.
-/
namespace Sparta.CtxCounter
open Sparta.Counter (word)

/-- what was charged to a context in a history -/
def charged (i : Nat) : List Op → Nat
  | [] => 0
  | .charge j k :: os => (if j = i then k else 0) + charged i os
  | .assign _ :: os => charged i os

/-- the weights a history leaves with a counter of `n` contexts, `ws` before: the last list of one or of `n` weights -/
def weightsOf (n : Nat) : List Rat → List Op → List Rat
  | ws, [] => ws
  | ws, .charge _ _ :: os => weightsOf n ws os
  | ws, .assign l :: os =>
    weightsOf n (if l.length = 1 then List.replicate n (l.headD 0) else if l.length = n then l else ws) os

/-- the counter after a history -/
def after (n : Nat) (os : List Op) : Option Ctx := (mk n).map fun c => (runOps Ctx.step c os).1

theorem charge_none {c : Ctx} {i k : Nat} (h : ¬ i < c.vals.length) : c.charge i k = none := by
  unfold Ctx.charge
  rw [List.getElem?_eq_none (by omega)]

theorem charge_some {c : Ctx} {i k : Nat} (h : i < c.vals.length) :
    c.charge i k = some { c with vals := c.vals.set i ((c.vals[i] + k) % word) } := by
  unfold Ctx.charge
  rw [List.getElem?_eq_getElem h]

theorem spread_eq {c : Ctx} (h : c.weights.length = 1 → ∃ w, c.weights = List.replicate c.num w ∧ c.num = 1) : c.spread = c := by
  unfold Ctx.spread
  split
  · next w e =>
    obtain ⟨w', h1, h2⟩ := h (by rw [e]; rfl)
    rw [h2] at h1
    rw [e] at h1
    rw [h2]
    cases c
    cases e
    rfl
  · rfl

theorem assign_eq {c : Ctx} (h : c.weights.length = c.num) (hn : c.num ≠ 0) (l : List Rat) :
    c.assign l = if l.length > 1 ∧ l.length ≠ c.num then none
      else some { c with weights := if l.length = 1 then List.replicate c.num (l.headD 0) else if l.length = c.num then l else c.weights } := by
  match l with
  | [] =>
    unfold Ctx.assign
    rw [if_pos rfl, if_neg (by simp), if_neg (by simp), if_neg (by simpa using hn.symm)]
    rw [spread_eq]
    intro e
    rw [h] at e
    match hw : c.weights with
    | [w] => exact ⟨w, by rw [e]; rfl, e⟩
    | [] => rw [hw] at h; exact absurd h.symm hn
    | _ :: _ :: _ => rw [hw, e] at h; simp at h
  | [w] =>
    unfold Ctx.assign Ctx.take
    rw [if_neg (by simp), if_neg (by simp), if_neg (by simp), if_pos (c := [w].length = 1) rfl]
    rfl
  | a :: b :: r =>
    unfold Ctx.assign Ctx.take
    rw [if_neg (by simp)]
    by_cases e : (a :: b :: r).length = c.num
    · rw [if_neg (fun k => k.2 e), if_neg (fun k => k.2 e), if_neg (by simp), if_pos e]
      rfl
    · rw [if_pos ⟨by simp, e⟩, if_pos ⟨by simp, e⟩]
      rfl

/-- one call -/
theorem step_spec {c : Ctx} (h : c.weights.length = c.num) (hn : c.num ≠ 0) (o : Op) :
    (c.step o).1.num = c.num ∧ (c.step o).1.weights.length = c.num ∧
    (∀ i : Nat, i < c.num → (c.step o).1.vals[i]? = (c.vals[i]?).map fun v => match o with | .charge j k => if j = i then (v + k) % word else v | .assign _ => v) ∧
    (c.step o).1.weights = weightsOf c.num c.weights [o] ∧
    (c.step o).2 = match o with | .charge j _ => decide (j < c.num) | .assign l => decide (l.length ≤ 1 ∨ l.length = c.num) := by
  cases o with
  | charge j k =>
    unfold Ctx.step
    dsimp only
    by_cases g : j < c.vals.length
    · rw [charge_some g]
      refine ⟨List.length_set, h, ?_, rfl, (decide_eq_true g).symm⟩
      intro i hi
      show (c.vals.set j _)[i]? = _
      rw [List.getElem?_set]
      have hi' : i < c.vals.length := hi
      rw [List.getElem?_eq_getElem hi']
      by_cases e : j = i
      · subst e
        rw [if_pos rfl, if_pos g]
        simp
      · rw [if_neg e]
        simp [e]
    · rw [charge_none g]
      refine ⟨rfl, h, ?_, rfl, (decide_eq_false g).symm⟩
      intro i hi
      have hi' : i < c.vals.length := hi
      have e : j ≠ i := by omega
      rw [List.getElem?_eq_getElem hi']
      simp [e]
  | assign l =>
    unfold Ctx.step
    dsimp only
    rw [assign_eq h hn]
    by_cases g : l.length > 1 ∧ l.length ≠ c.num
    · rw [if_pos g]
      refine ⟨rfl, h, ?_, ?_, ?_⟩
      · intro i _; simp
      · show c.weights = if l.length = 1 then _ else if l.length = c.num then l else c.weights
        rw [if_neg (by omega), if_neg g.2]
      · exact (decide_eq_false (by omega)).symm
    · rw [if_neg g]
      refine ⟨rfl, ?_, ?_, rfl, ?_⟩
      · dsimp only
        split
        · exact List.length_replicate
        · split
          · assumption
          · exact h
      · intro i _; simp
      · exact (decide_eq_true (by omega)).symm

theorem weightsOf_cons (n : Nat) (ws : List Rat) (o : Op) (os : List Op) :
    weightsOf n ws (o :: os) = weightsOf n (weightsOf n ws [o]) os := by
  cases o <;> rfl

theorem run_spec (os : List Op) : ∀ {c : Ctx}, c.weights.length = c.num → c.num ≠ 0 → (∀ v ∈ c.vals, v < word) →
    (runOps Ctx.step c os).1.num = c.num ∧ (runOps Ctx.step c os).1.weights = weightsOf c.num c.weights os ∧
    (runOps Ctx.step c os).1.weights.length = c.num ∧
    (∀ i : Nat, i < c.num → (runOps Ctx.step c os).1.vals[i]? = (c.vals[i]?).map fun v => (v + charged i os) % word) := by
  induction os with
  | nil =>
    intro c h hn hw
    refine ⟨rfl, rfl, h, ?_⟩
    intro i hi
    have hi' : i < c.vals.length := hi
    show c.vals[i]? = _
    rw [List.getElem?_eq_getElem hi']
    have := hw _ (List.getElem_mem hi')
    simp [charged, Nat.mod_eq_of_lt this]
  | cons o os ih =>
    intro c h hn hw
    obtain ⟨a1, a2, a3, a4, _⟩ := step_spec h hn o
    have hw' : ∀ v ∈ (c.step o).1.vals, v < word := by
      intro v hv
      obtain ⟨i, hi, e⟩ := List.getElem_of_mem hv
      have hi2 : i < c.num := a1 ▸ hi
      have h3 := a3 i hi2
      have hi3 : i < c.vals.length := hi2
      rw [List.getElem?_eq_getElem hi, List.getElem?_eq_getElem hi3, e] at h3
      have h4 := hw _ (List.getElem_mem hi3)
      have h5 : ∀ x : Nat, x % word < word := fun x => Nat.mod_lt _ (by decide)
      have h6 := Option.some.inj h3
      cases o with
      | charge j k =>
        dsimp only at h6
        split at h6
        · rw [h6]; exact h5 _
        · rw [h6]; exact h4
      | assign l => rw [h6]; exact h4
    obtain ⟨b1, b2, b3, b4⟩ := ih (a2.trans a1.symm) (a1.symm ▸ hn) hw'
    show (runOps Ctx.step (c.step o).1 os).1.num = _ ∧ (runOps Ctx.step (c.step o).1 os).1.weights = _ ∧
      (runOps Ctx.step (c.step o).1 os).1.weights.length = _ ∧
      (∀ i : Nat, i < c.num → (runOps Ctx.step (c.step o).1 os).1.vals[i]? = _)
    refine ⟨b1.trans a1, ?_, b3.trans a1, ?_⟩
    · rw [b2, a1, a4, ← weightsOf_cons]
    · intro i hi
      rw [b4 i (a1.symm ▸ hi), a3 i hi]
      cases o with
      | charge j k =>
        have hi' : i < c.vals.length := hi
        rw [List.getElem?_eq_getElem hi']
        by_cases e : j = i
        · simp [e, charged, Nat.add_assoc]
        · simp [e, charged]
      | assign l => simp [charged]

theorem mk_pos {n : Nat} (hn : n ≠ 0) : mk n = some ⟨List.replicate n 0, List.replicate n 1⟩ := if_neg hn

theorem after_spec {n : Nat} (hn : n ≠ 0) (os : List Op) : ∃ c, after n os = some c ∧ c.num = n ∧
    c.weights = weightsOf n (List.replicate n 1) os ∧ c.weights.length = n ∧ ∀ i : Nat, i < n → c.vals[i]? = some (charged i os % word) := by
  unfold after
  rw [mk_pos hn]
  obtain ⟨a, b, d, e⟩ := run_spec os (c := ⟨List.replicate n 0, List.replicate n 1⟩) (by simp [Ctx.num]) (by simpa [Ctx.num] using hn)
    (by intro v hv; rw [List.eq_of_mem_replicate hv]; decide)
  refine ⟨_, rfl, ?_, ?_, ?_, ?_⟩
  · rw [a]; simp [Ctx.num]
  · rw [b]; simp [Ctx.num]
  · rw [d]; simp [Ctx.num]
  · intro i hi
    rw [e i (by simpa [Ctx.num] using hi)]
    simp [hi]

/-- **C247** Each context of a counter has what was charged to it, modulo 2^64, whatever was charged to others or done to the weights. -/
theorem C247_contexts {n : Nat} (hn : n ≠ 0) (os : List Op) : ∃ c, after n os = some c ∧
    c.vals = (List.range n).map fun i => charged i os % word := by
  obtain ⟨c, h1, h2, _, _, h5⟩ := after_spec hn os
  refine ⟨c, h1, ?_⟩
  apply List.ext_getElem?
  intro i
  by_cases hi : i < n
  · rw [h5 i hi]; simp [hi]
  · have : c.vals.length = n := h2
    rw [List.getElem?_eq_none (by omega), List.getElem?_eq_none (by simp; omega)]

example : (after 2 [.charge 0 3, .charge 1 4, .charge 2 7, .charge 0 1]).map (·.vals) = some [4, 4] := by decide +kernel

/-- **C247** A context is refused exactly if the counter does not have it, and weights exactly if there are neither at most one nor as many
as contexts. -/
theorem C247_refused {n : Nat} (hn : n ≠ 0) (os : List Op) : ∃ c, after n os = some c ∧
    (∀ i k, (c.step (.charge i k)).2 = decide (i < n)) ∧
    (∀ ws, (c.step (.assign ws)).2 = decide (ws.length ≤ 1 ∨ ws.length = n)) := by
  obtain ⟨c, h1, h2, _, h4, _⟩ := after_spec hn os
  refine ⟨c, h1, ?_, ?_⟩
  · intro i k
    obtain ⟨_, _, _, _, a⟩ := step_spec (h4.trans h2.symm) (h2.symm ▸ hn) (.charge i k)
    rw [a, h2]
  · intro ws
    obtain ⟨_, _, _, _, a⟩ := step_spec (h4.trans h2.symm) (h2.symm ▸ hn) (.assign ws)
    rw [a, h2]

example : ((after 3 []).map fun c => ((c.step (.charge 3 1)).2, (c.step (.assign [1, 2])).2, (c.step (.assign [5])).2)) = some (false, false, true) := by
  decide +kernel

theorem exprLoop_eq (ctx : String) : ∀ k i, exprLoop ctx k i = (List.range' i k).map fun j => ctx ++ j.repr
  | 0, _ => rfl
  | k + 1, i => by
    rw [exprLoop, exprLoop_eq ctx k (i + 1), List.range'_succ]
    rfl

theorem exprArg_eq (ctx : String) {n : Nat} (hn : n ≠ 0) : exprArg ctx n = names ctx n := by
  obtain ⟨m, rfl⟩ : ∃ m, n = m + 1 := ⟨n - 1, by omega⟩
  unfold exprArg names
  rw [exprLoop_eq, List.range_eq_range', List.range'_succ]
  rfl

theorem names_inj {ctx : String} {i j : Nat} (h : ctx ++ i.repr = ctx ++ j.repr) : i = j := by
  have h1 := congrArg String.toList h
  rw [String.toList_append, String.toList_append] at h1
  exact Nat.repr_injective (String.toList_inj.1 (List.append_cancel_left h1))

theorem lookup_names (ctx : String) (n : Nat) : ∀ (s : Nat) (vs : List Nat), vs.length = n → ∀ i, (h : i < n) →
    lookup ((List.range' s n).map fun j => ctx ++ j.repr) vs (ctx ++ (s + i).repr) = vs[i]? := by
  induction n with
  | zero => intro s vs _ i h; omega
  | succ n ih =>
    intro s vs hv i hi
    match vs with
    | v :: vs =>
      rw [List.range'_succ, List.map_cons]
      unfold lookup
      by_cases e : i = 0
      · subst e
        rw [Nat.add_zero, if_pos rfl]
        rfl
      · rw [if_neg (fun k => e (by have := names_inj k; omega))]
        obtain ⟨m, rfl⟩ : ∃ m, i = m + 1 := ⟨i - 1, by omega⟩
        have := ih (s + 1) vs (by simpa using hv) m (by omega)
        rw [show s + 1 + m = s + (m + 1) by omega] at this
        rw [this]
        rfl

theorem evalSum_eq (ns : List String) (vs : List Nat) (l : List String) : ∀ (r : List Nat), l.length = r.length →
    (∀ i : Nat, (h : i < l.length) → (h' : i < r.length) → lookup ns vs l[i] = some r[i]) → evalSum ns vs l = some r.sum := by
  induction l with
  | nil => intro r h _; match r with | [] => rfl
  | cons y ys ih =>
    intro r hr h
    match r with
    | a :: r =>
      have h0 := h 0 (by simp) (by simp)
      have hs := ih r (by simpa using hr) (fun i hi hi' => h (i + 1) (by simpa using hi) (by simpa using hi'))
      have h0' : lookup ns vs y = some a := h0
      unfold evalSum
      rw [h0', hs]
      simp

/-- **C247** The aggregate is the sum of the contexts, whatever name they are made from. -/
theorem C247_aggregate {n : Nat} (hn : n ≠ 0) (os : List Op) (ctx : String) : ∃ c, after n os = some c ∧
    c.aggregate ctx = some ((List.range n).map fun i => charged i os % word).sum := by
  obtain ⟨c, h1, h2⟩ := C247_contexts hn os
  refine ⟨c, h1, ?_⟩
  have hl : c.vals.length = n := by rw [h2]; simp
  unfold Ctx.aggregate Ctx.num
  rw [hl, exprArg_eq ctx hn]
  rw [← h2]
  apply evalSum_eq
  · rw [hl]; simp [names]
  · intro i hi hi'
    have := lookup_names ctx n 0 c.vals hl i (by omega)
    rw [Nat.zero_add, ← List.range_eq_range'] at this
    have e : (names ctx n)[i] = ctx ++ i.repr := by simp [names]
    rw [e]
    show lookup (names ctx n) c.vals (ctx ++ i.repr) = _
    unfold names
    rw [this, List.getElem?_eq_getElem hi']

example : ((after 3 [.charge 0 3, .charge 2 4]).bind (·.aggregate "thread")) = some 7 := by decide +kernel

/-- **C248** The weights are those assigned last, one weight being for all contexts; at first they are 1. There is one for each context. -/
theorem C248_weights {n : Nat} (hn : n ≠ 0) (os : List Op) : ∃ c, after n os = some c ∧
    c.weights = weightsOf n (List.replicate n 1) os ∧ c.weights.length = n := by
  obtain ⟨c, h1, _, h3, h4, _⟩ := after_spec hn os
  exact ⟨c, h1, h3, h4⟩

example : (after 3 [.assign [2], .charge 1 1, .assign [1, 2], .assign []]).map (·.weights) = some [2, 2, 2] := by decide +kernel

theorem weighted_eq : ∀ (vs : List Nat) (ws : List Rat) (acc : Rat), vs.length = ws.length →
    weighted vs ws acc = some (acc + (List.zipWith (fun (v : Nat) w => (v : Rat) * w) vs ws).sum)
  | [], [], acc, _ => by simp [weighted, Rat.add_zero]
  | v :: vs, w :: ws, acc, h => by
    rw [weighted, weighted_eq vs ws _ (by simpa using h)]
    simp [Rat.add_assoc]

/-- **C248** The average is always defined: the sum of the contexts times their weights, divided by the number of contexts. -/
theorem C248_average {n : Nat} (hn : n ≠ 0) (os : List Op) : ∃ c, after n os = some c ∧
    c.average = some ((List.zipWith (fun (v : Nat) w => (v : Rat) * w) ((List.range n).map fun i => charged i os % word)
      (weightsOf n (List.replicate n 1) os)).sum / (n : Rat)) := by
  obtain ⟨c, h1, h2, h3, h4, _⟩ := after_spec hn os
  obtain ⟨c', h1', h5⟩ := C247_contexts hn os
  cases Option.some.inj (h1.symm.trans h1')
  refine ⟨c, h1, ?_⟩
  have hl : c.vals.length = n := h2
  unfold Ctx.average
  rw [weighted_eq _ _ _ (hl.trans h4.symm), h2, h5, h3, Rat.zero_add]
  rfl

example : ((after 2 [.charge 0 3, .charge 1 5, .assign [1, 2]]).bind (·.average)) = some (13 / 2) := by decide +kernel

theorem zip_le (m : Nat) : ∀ (vs : List Nat) (ws : List Rat), vs.length = ws.length → (∀ v ∈ vs, v ≤ m) → (∀ w ∈ ws, (0 : Rat) ≤ w) →
    (List.zipWith (fun (v : Nat) w => (v : Rat) * w) vs ws).sum ≤ (m : Rat) * ws.sum
  | [], [], _, _, _ => by simp
  | v :: vs, w :: ws, h, h1, h2 => by
    have ih := zip_le m vs ws (by simpa using h) (fun x hx => h1 x (by simp [hx])) (fun x hx => h2 x (by simp [hx]))
    have a : (v : Rat) ≤ (m : Rat) := Rat.natCast_le_natCast.2 (h1 v (by simp))
    have b : (v : Rat) * w ≤ (m : Rat) * w := Rat.mul_le_mul_of_nonneg_right a (h2 w (by simp))
    rw [List.zipWith_cons_cons, List.sum_cons, List.sum_cons, Rat.mul_add]
    exact Rat.le_trans (Rat.add_le_add_right.2 b) (Rat.add_le_add_left.2 ih)

theorem zip_ge (m : Nat) : ∀ (vs : List Nat) (ws : List Rat), vs.length = ws.length → (∀ v ∈ vs, m ≤ v) → (∀ w ∈ ws, (0 : Rat) ≤ w) →
    (m : Rat) * ws.sum ≤ (List.zipWith (fun (v : Nat) w => (v : Rat) * w) vs ws).sum
  | [], [], _, _, _ => by simp
  | v :: vs, w :: ws, h, h1, h2 => by
    have ih := zip_ge m vs ws (by simpa using h) (fun x hx => h1 x (by simp [hx])) (fun x hx => h2 x (by simp [hx]))
    have a : (m : Rat) ≤ (v : Rat) := Rat.natCast_le_natCast.2 (h1 v (by simp))
    have b : (m : Rat) * w ≤ (v : Rat) * w := Rat.mul_le_mul_of_nonneg_right a (h2 w (by simp))
    rw [List.zipWith_cons_cons, List.sum_cons, List.sum_cons, Rat.mul_add]
    exact Rat.le_trans (Rat.add_le_add_right.2 b) (Rat.add_le_add_left.2 ih)

/-- **C248** (the claim that an average lies between the least and the largest context, for weights that are not negative and whose sum is the number of
contexts; what is missing is shown false below) -/
theorem C248_average_between_partial {n : Nat} (hn : n ≠ 0) (os : List Op)
    (hw : ∀ w ∈ weightsOf n (List.replicate n 1) os, (0 : Rat) ≤ w) (hs : (weightsOf n (List.replicate n 1) os).sum = (n : Rat)) (lo hi : Nat)
    (hlo : ∀ i < n, lo ≤ charged i os % word) (hhi : ∀ i < n, charged i os % word ≤ hi) :
    ∃ c a, after n os = some c ∧ c.average = some a ∧ (lo : Rat) ≤ a ∧ a ≤ (hi : Rat) := by
  obtain ⟨c, h1, h2⟩ := C248_average hn os
  obtain ⟨_, _, h3, h4⟩ := C248_weights hn os
  have hl : ((List.range n).map fun i => charged i os % word).length = (weightsOf n (List.replicate n 1) os).length := by
    rw [← h3, h4]; simp
  have hpos : (0 : Rat) < (n : Rat) := Rat.natCast_pos.2 (by omega)
  refine ⟨c, _, h1, h2, ?_, ?_⟩
  · have := zip_ge lo _ _ hl (by intro v hv; simp at hv; obtain ⟨i, hi, rfl⟩ := hv; exact hlo i hi) hw
    rw [hs] at this
    exact Rat.not_lt.1 fun k => Rat.not_lt.2 this ((Rat.div_lt_iff hpos).1 k)
  · have := zip_le hi _ _ hl (by intro v hv; simp at hv; obtain ⟨i, hi, rfl⟩ := hv; exact hhi i hi) hw
    rw [hs] at this
    exact Rat.not_lt.1 fun k => Rat.not_lt.2 this ((Rat.lt_div_iff hpos).1 k)

example : (∀ w ∈ weightsOf 2 (List.replicate 2 1) [.charge 0 3, .charge 1 5, .assign [1 / 2, 3 / 2]], (0 : Rat) ≤ w) ∧
    (weightsOf 2 (List.replicate 2 1) [.charge 0 3, .charge 1 5, .assign [1 / 2, 3 / 2]]).sum = (2 : Nat) := by decide +kernel

/-- **C248** The sum of the weights is not taken into account: with weights 1 and 3 the average of two contexts that both have 2 is 4. -/
theorem C248_average_between_violated : ((after 2 [.charge 0 2, .charge 1 2, .assign [1, 3]]).bind (·.average)) = some 4 ∧
    (after 2 [.charge 0 2, .charge 1 2, .assign [1, 3]]).map (·.vals) = some [2, 2] := by decide +kernel

theorem maxLoop_spec : ∀ (vs : List Nat) (m : Rat), m ≤ maxLoop vs m ∧ (∀ v ∈ vs, (v : Rat) ≤ maxLoop vs m) ∧
    (maxLoop vs m = m ∨ ∃ v ∈ vs, maxLoop vs m = (v : Rat))
  | [], m => ⟨Rat.le_refl, by simp, Or.inl rfl⟩
  | v :: vs, m => by
    unfold maxLoop
    obtain ⟨a, b, d⟩ := maxLoop_spec vs (if m < (v : Rat) then (v : Rat) else m)
    by_cases g : m < (v : Rat)
    · rw [if_pos g] at a b d ⊢
      refine ⟨Rat.le_trans (Rat.le_of_lt g) a, ?_, ?_⟩
      · intro x hx
        rcases List.mem_cons.1 hx with rfl | hx
        · exact a
        · exact b x hx
      · rcases d with d | ⟨x, hx, d⟩
        · exact Or.inr ⟨v, by simp, d⟩
        · exact Or.inr ⟨x, by simp [hx], d⟩
    · rw [if_neg g] at a b d ⊢
      refine ⟨a, ?_, ?_⟩
      · intro x hx
        rcases List.mem_cons.1 hx with rfl | hx
        · exact Rat.le_trans (Rat.not_lt.1 g) a
        · exact b x hx
      · rcases d with d | ⟨x, hx, d⟩
        · exact Or.inl d
        · exact Or.inr ⟨x, by simp [hx], d⟩

theorem tiny_lt_one : tiny < 1 := by unfold tiny; decide +kernel
theorem tiny_pos : 0 < tiny := by unfold tiny; decide +kernel

/-- **C248** (the maximum is the largest context, once something is charged; what is missing is shown false below) -/
theorem C248_maximum_partial {n : Nat} (os : List Op) (i : Nat) (hi : i < n) (hp : 0 < charged i os % word)
    (hm : ∀ j < n, charged j os % word ≤ charged i os % word) :
    ∃ c, after n os = some c ∧ c.maximum = some ((charged i os % word : Nat) : Rat) := by
  have hn : n ≠ 0 := by omega
  obtain ⟨c, h1, h2⟩ := C247_contexts hn os
  refine ⟨c, h1, ?_⟩
  have hl : c.num = n := by unfold Ctx.num; rw [h2]; simp
  unfold Ctx.maximum
  rw [if_neg (hl.symm ▸ hn)]
  obtain ⟨_, b, d⟩ := maxLoop_spec c.vals tiny
  have hmem : charged i os % word ∈ c.vals := by rw [h2]; exact List.mem_map.2 ⟨i, by simpa using hi, rfl⟩
  have hge := b _ hmem
  have h1le : (1 : Rat) ≤ ((charged i os % word : Nat) : Rat) := by
    have := Rat.natCast_le_natCast.2 (show 1 ≤ charged i os % word from hp)
    simpa using this
  congr 1
  rcases d with d | ⟨x, hx, d⟩
  · rw [d] at hge
    exact absurd (Rat.le_trans h1le hge) (Rat.not_le.2 tiny_lt_one)
  · rw [d] at hge ⊢
    rw [h2] at hx
    obtain ⟨j, hj, rfl⟩ := List.mem_map.1 hx
    have := hm j (by simpa using hj)
    exact Rat.le_antisymm (Rat.natCast_le_natCast.2 this) hge

example : (after 3 [.charge 0 3, .charge 1 5]).bind (·.maximum) = some 5 := by decide +kernel

/-- **C248** The maximum of contexts to which nothing was charged is not 0: it is the least positive normal number. -/
theorem C248_maximum_violated : (after 2 []).bind (·.maximum) = some tiny ∧ tiny ≠ 0 :=
  ⟨by decide +kernel, fun h => by have := tiny_pos; rw [h] at this; exact absurd this (by decide)⟩

end Sparta.CtxCounter
