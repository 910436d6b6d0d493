import Verif.TNode.Spec
import Mathlib.Data.List.Nodup
import Mathlib.Data.List.Perm.Subperm
/-!
The shape of the tree: parents and children agree, no cycles.
-/
namespace Sparta.TNode
open Sparta.Strings (Str)

/-! ### levels -/

theorem Lv.unique {P : Nat → Option Nat} {n d e : Nat} (h : Lv P n d) (h' : Lv P n e) : d = e := by
  induction h generalizing e with
  | zero h => cases h' with
    | zero _ => rfl
    | succ h1 _ => rw [h] at h1; cases h1
  | succ h _ ih => cases h' with
    | zero h1 => rw [h] at h1; cases h1
    | succ h1 h2 => rw [h] at h1; cases h1; rw [ih h2]

theorem Above.lv {P : Nat → Option Nat} {a n d : Nat} (h : Above P a n) (hl : Lv P n d) : ∃ e, e < d ∧ Lv P a e := by
  induction h generalizing d with
  | parent h => cases hl with
    | zero h1 => rw [h] at h1; cases h1
    | succ h1 h2 => rw [h] at h1; cases h1; exact ⟨_, Nat.lt_succ_self _, h2⟩
  | up h _ ih => cases hl with
    | zero h1 => rw [h] at h1; cases h1
    | succ h1 h2 =>
      rw [h] at h1; cases h1
      obtain ⟨e, he, hl⟩ := ih h2
      exact ⟨e, by omega, hl⟩

theorem Above.irrefl {P : Nat → Option Nat} {n d : Nat} (hl : Lv P n d) : ¬ Above P n n := by
  intro h
  obtain ⟨e, he, h2⟩ := h.lv hl
  rw [hl.unique h2] at he
  omega

theorem Above.trans {P : Nat → Option Nat} {a b c : Nat} (h : Above P a b) (h' : Above P b c) : Above P a c := by
  induction h' with
  | parent h1 => exact .up h1 h
  | up h1 _ ih => exact .up h1 ih

/-! ### the chain of parents -/

theorem chain_lv {s : St} {n d : Nat} (h : Lv (parentOf s) n d) {f : Nat} (hf : d < f) :
    chain s f n = chain s (d + 1) n ∧ (chain s (d + 1) n).length = d + 1 := by
  induction h generalizing f with
  | zero h =>
    obtain ⟨f, rfl⟩ : ∃ g, f = g + 1 := ⟨f - 1, by omega⟩
    simp only [chain, h, List.length_cons, List.length_nil, and_self]
  | @succ n p d h _ ih =>
    obtain ⟨f, rfl⟩ : ∃ g, f = g + 1 := ⟨f - 1, by omega⟩
    have := ih (f := f) (by omega)
    refine ⟨?_, ?_⟩
    · rw [chain, chain, h]; simp only [this.1]
    · rw [chain, h]; simp only [List.length_cons, this.2]

theorem mem_chain {s : St} {n d : Nat} (h : Lv (parentOf s) n d) (a : Nat) :
    a ∈ chain s (d + 1) n ↔ a = n ∨ Above (parentOf s) a n := by
  induction h with
  | @zero n h =>
    rw [chain, h]
    constructor
    · intro h1; exact .inl (List.mem_singleton.1 h1)
    · rintro (h1 | h1)
      · rw [h1]; simp
      · cases h1 with
        | parent h2 => rw [h] at h2; cases h2
        | up h2 _ => rw [h] at h2; cases h2
  | @succ n p d h _ ih =>
    rw [chain, h]
    simp only [List.mem_cons]
    rw [ih]
    constructor
    · rintro (h1 | h1 | h1)
      · exact .inl h1
      · rw [h1]; exact .inr (.parent h)
      · exact .inr (.up h h1)
    · rintro (h1 | h1)
      · exact .inl h1
      · cases h1 with
        | parent h2 => rw [h] at h2; cases h2; exact .inr (.inl rfl)
        | up h2 h3 => rw [h] at h2; cases h2; exact .inr (.inr h3)

theorem nodup_chain {s : St} {n d : Nat} (h : Lv (parentOf s) n d) : (chain s (d + 1) n).Nodup := by
  induction h with
  | @zero n h => rw [chain, h]; simp
  | @succ n p d h hl ih =>
    rw [chain, h]
    refine List.nodup_cons.2 ⟨?_, ih⟩
    intro hm
    rcases (mem_chain hl n).1 hm with rfl | h1
    · have := hl.unique (.succ h hl); omega
    · exact Above.irrefl (.succ h hl) (.up h h1)

/-! ### the invariant -/

/-- parent and children of the nodes -/
def shapeOf (s : St) (n : Nat) : Option (Option Nat × List Nat) :=
  match s.node n with
  | none => none
  | some nd => some (nd.parent, nd.children)

def parSh (sh : Nat → Option (Option Nat × List Nat)) (n : Nat) : Option Nat :=
  match sh n with
  | none => none
  | some p => p.1

structure WFs (sh : Nat → Option (Option Nat × List Nat)) (next : Nat) : Prop where
  lt : ∀ n v, sh n = some v → n < next
  par : ∀ n v p, sh n = some v → v.1 = some p → ∃ w, sh p = some w ∧ n ∈ w.2
  chi : ∀ p v c, sh p = some v → c ∈ v.2 → ∃ w, sh c = some w ∧ w.1 = some p
  nodup : ∀ p v, sh p = some v → v.2.Nodup
  top : ∀ n v, sh n = some v → ∃ d, Lv (parSh sh) n d

def WF (s : St) : Prop := WFs (shapeOf s) s.next

theorem parentOf_eq (s : St) : parentOf s = parSh (shapeOf s) := by
  funext n
  unfold parentOf parSh shapeOf
  cases s.node n <;> rfl

theorem shape_some {s : St} {n : Nat} {nd : Node} (h : s.node n = some nd) : shapeOf s n = some (nd.parent, nd.children) := by
  unfold shapeOf; rw [h]

theorem shape_inv {s : St} {n : Nat} {v : Option Nat × List Nat} (h : shapeOf s n = some v) :
    ∃ nd, s.node n = some nd ∧ v = (nd.parent, nd.children) := by
  unfold shapeOf at h
  split at h
  · cases h
  · rename_i nd hn; cases h; exact ⟨nd, hn, rfl⟩

theorem parentOf_some {s : St} {n : Nat} {nd : Node} (h : s.node n = some nd) : parentOf s n = nd.parent := by
  unfold parentOf; rw [h]

theorem WF.lv {s : St} (h : WF s) {n : Nat} {nd : Node} (hn : s.node n = some nd) : ∃ d, Lv (parentOf s) n d := by
  rw [parentOf_eq]
  exact h.top n _ (shape_some hn)

theorem WF.above_alive {s : St} (h : WF s) {a n : Nat} (ha : Above (parentOf s) a n) : ∃ ad, s.node a = some ad := by
  have key : ∀ {n a}, parentOf s n = some a → ∃ ad, s.node a = some ad := by
    intro n a hp
    unfold parentOf at hp
    split at hp
    · cases hp
    · rename_i nd hn
      obtain ⟨w, hw, -⟩ := h.par n _ a (shape_some hn) hp
      obtain ⟨ad, had, -⟩ := shape_inv hw
      exact ⟨ad, had⟩
  induction ha with
  | parent h1 => exact key h1
  | up _ _ ih => exact ih

theorem WF.lv_lt {s : St} (h : WF s) {n d : Nat} {nd : Node} (hn : s.node n = some nd) (hl : Lv (parentOf s) n d) : d < s.next := by
  have hsub : chain s (d + 1) n ⊆ List.range s.next := by
    intro x hx
    rw [List.mem_range]
    rcases (mem_chain hl x).1 hx with rfl | hx
    · exact h.lt _ _ (shape_some hn)
    · obtain ⟨xd, hxd⟩ := h.above_alive hx
      exact h.lt _ _ (shape_some hxd)
  have := (nodup_chain hl).length_le_of_subset hsub
  rw [(chain_lv hl (Nat.lt_succ_self d)).2, List.length_range] at this
  omega

theorem WF.ancestry {s : St} (h : WF s) {n d : Nat} {nd : Node} (hn : s.node n = some nd) (hl : Lv (parentOf s) n d) :
    ancestry s n = chain s (d + 1) n := (chain_lv hl (h.lv_lt hn hl)).1

theorem WF.mem_ancestry {s : St} (h : WF s) {n : Nat} {nd : Node} (hn : s.node n = some nd) (a : Nat) :
    a ∈ TNode.ancestry s n ↔ a = n ∨ Above (parentOf s) a n := by
  obtain ⟨d, hl⟩ := h.lv hn
  rw [h.ancestry hn hl]
  exact mem_chain hl a

theorem WF.under_iff {s : St} (h : WF s) {n : Nat} {nd : Node} (hn : s.node n = some nd) (a : Nat) :
    under s a n = true ↔ a = n ∨ Above (parentOf s) a n := by
  unfold under
  rw [List.contains_iff_mem]
  exact h.mem_ancestry hn a

/-! ### preservation -/

theorem wf_init : WF init := by
  constructor <;> intros <;> simp_all [shapeOf, init]

theorem WF.congr {s s' : St} (h : WF s) (hs : ∀ x, shapeOf s' x = shapeOf s x) (hn : s'.next = s.next) : WF s' := by
  have : shapeOf s' = shapeOf s := funext hs
  unfold WF
  rw [this, hn]
  exact h

theorem Lv.cut {P Q : Nat → Option Nat} (hQ : ∀ x, Q x = P x ∨ Q x = none) {n d : Nat} (h : Lv P n d) : ∃ e, Lv Q n e := by
  induction h with
  | @zero n h =>
    refine ⟨0, .zero ?_⟩
    rcases hQ n with h1 | h1
    · rw [h1, h]
    · exact h1
  | @succ n p d h _ ih =>
    obtain ⟨e, he⟩ := ih
    rcases hQ n with h1 | h1
    · exact ⟨e + 1, .succ (h1.trans h) he⟩
    · exact ⟨0, .zero h1⟩

theorem Lv.same {P Q : Nat → Option Nat} {c : Nat} (hQ : ∀ x, x ≠ c → Q x = P x) {n d : Nat} (h : Lv P n d)
    (hc : n ≠ c) (ha : ¬ Above P c n) : Lv Q n d := by
  induction h with
  | @zero n h => exact .zero ((hQ n hc).trans h)
  | @succ n p d h _ ih =>
    refine .succ ((hQ n hc).trans h) (ih ?_ ?_)
    · rintro rfl; exact ha (.parent h)
    · intro h1; exact ha (.up h h1)

theorem Lv.hang {P Q : Nat → Option Nat} {p c e : Nat} (hQ : ∀ x, x ≠ c → Q x = P x) (hc : Q c = some p) (hp : Lv Q p e)
    {n d : Nat} (h : Lv P n d) : ∃ e', Lv Q n e' := by
  induction h with
  | @zero n h =>
    by_cases hn : n = c
    · rw [hn]; exact ⟨_, .succ hc hp⟩
    · exact ⟨0, .zero ((hQ n hn).trans h)⟩
  | @succ n p d h _ ih =>
    by_cases hn : n = c
    · rw [hn]; exact ⟨_, .succ hc hp⟩
    · obtain ⟨e', he⟩ := ih
      exact ⟨_, .succ ((hQ n hn).trans h) he⟩

theorem wf_alloc {s : St} (h : WF s) {nd : Node} (hp : nd.parent = none) (hc : nd.children = []) : WF (alloc s nd) := by
  have hfresh : shapeOf s s.next = none := by
    cases he : shapeOf s s.next with
    | none => rfl
    | some v => exact absurd (h.lt _ _ he) (Nat.lt_irrefl _)
  have hne : shapeOf (alloc s nd) s.next = some (none, []) := by simp [shapeOf, alloc, hp, hc]
  have hold : ∀ x, x ≠ s.next → shapeOf (alloc s nd) x = shapeOf s x := by intro x hx; simp [shapeOf, alloc, hx]
  have hP : parSh (shapeOf (alloc s nd)) = parSh (shapeOf s) := by
    funext x
    unfold parSh
    by_cases hx : x = s.next
    · rw [hx, hne, hfresh]
    · rw [hold x hx]
  constructor
  · intro n v hv
    show n < s.next + 1
    by_cases hx : n = s.next
    · omega
    · rw [hold n hx] at hv
      have := h.lt _ _ hv; omega
  · intro n v p hv hvp
    by_cases hx : n = s.next
    · rw [hx, hne] at hv; cases hv; cases hvp
    · rw [hold n hx] at hv
      obtain ⟨w, hw, hm⟩ := h.par n v p hv hvp
      refine ⟨w, ?_, hm⟩
      rw [hold p (by rintro rfl; rw [hfresh] at hw; cases hw)]
      exact hw
  · intro p v c hv hc
    by_cases hx : p = s.next
    · rw [hx, hne] at hv; cases hv; cases hc
    · rw [hold p hx] at hv
      obtain ⟨w, hw, hm⟩ := h.chi p v c hv hc
      refine ⟨w, ?_, hm⟩
      rw [hold c (by rintro rfl; rw [hfresh] at hw; cases hw)]
      exact hw
  · intro p v hv
    by_cases hx : p = s.next
    · rw [hx, hne] at hv; cases hv; exact List.nodup_nil
    · rw [hold p hx] at hv; exact h.nodup p v hv
  · intro n v hv
    rw [hP]
    by_cases hx : n = s.next
    · refine ⟨0, .zero ?_⟩
      unfold parSh; rw [hx, hfresh]
    · rw [hold n hx] at hv; exact h.top n v hv

theorem shape_attach {s : St} {p c : Nat} {pd cd : Node} (x : Nat) :
    shapeOf (attach s p c pd cd) x =
      if x = p then some (pd.parent, pd.children ++ [c]) else if x = c then some (some p, cd.children) else shapeOf s x := by
  unfold shapeOf attach
  dsimp only
  by_cases h1 : x = p
  · simp [h1]
  · by_cases h2 : x = c
    · simp only [if_neg h1, if_pos h2]
    · simp only [if_neg h1, if_neg h2]
      cases s.node x with
      | none => rfl
      | some nd => dsimp only; split <;> rfl

theorem wf_attach {s : St} (h : WF s) {p c : Nat} {pd cd : Node} (hp : s.node p = some pd) (hc : s.node c = some cd)
    (hpc : p ≠ c) (ha : ¬ Above (parentOf s) c p) (hcp : cd.parent = none) : WF (attach s p c pd cd) := by
  have hsp := shape_some hp
  have hsc := shape_some hc
  have hS : ∀ x, x ≠ p → x ≠ c → shapeOf (attach s p c pd cd) x = shapeOf s x := by
    intro x h1 h2; rw [shape_attach, if_neg h1, if_neg h2]
  have hSp : shapeOf (attach s p c pd cd) p = some (pd.parent, pd.children ++ [c]) := by rw [shape_attach, if_pos rfl]
  have hSc : shapeOf (attach s p c pd cd) c = some (some p, cd.children) := by
    rw [shape_attach, if_neg (Ne.symm hpc), if_pos rfl]
  have hcn : c ∉ pd.children := by
    intro hm
    obtain ⟨w, hw, hwp⟩ := h.chi p _ c hsp hm
    rw [hsc] at hw; cases hw
    rw [hcp] at hwp; cases hwp
  have hQ : ∀ x, x ≠ c → parSh (shapeOf (attach s p c pd cd)) x = parSh (shapeOf s) x := by
    intro x hx
    unfold parSh
    by_cases h1 : x = p
    · rw [h1, hSp, hsp]
    · rw [hS x h1 hx]
  have hQc : parSh (shapeOf (attach s p c pd cd)) c = some p := by unfold parSh; rw [hSc]
  have hup : ∀ x v, shapeOf (attach s p c pd cd) x = some v → ∃ w, shapeOf s x = some w ∧ (x ≠ p → v.2 = w.2) ∧ (x ≠ c → v.1 = w.1) := by
    intro x v hv
    by_cases h1 : x = p
    · rw [h1, hSp] at hv; cases hv
      exact ⟨(pd.parent, pd.children), h1 ▸ hsp, fun h => absurd h1 h, fun _ => rfl⟩
    · by_cases h2 : x = c
      · rw [h2, hSc] at hv; cases hv
        exact ⟨(cd.parent, cd.children), h2 ▸ hsc, fun _ => rfl, fun h => absurd h2 h⟩
      · rw [hS x h1 h2] at hv
        exact ⟨v, hv, fun _ => rfl, fun _ => rfl⟩
  constructor
  · intro n v hv
    obtain ⟨w, hw, -⟩ := hup n v hv
    exact h.lt n w hw
  · intro n v q hv hvq
    by_cases h2 : n = c
    · rw [h2, hSc] at hv; cases hv; cases hvq
      exact ⟨_, hSp, by rw [h2]; simp⟩
    · obtain ⟨w, hw, -, hw1⟩ := hup n v hv
      obtain ⟨u, hu, hm⟩ := h.par n w q hw ((hw1 h2) ▸ hvq)
      by_cases h3 : q = p
      · rw [h3] at hu ⊢; rw [hsp] at hu; cases hu
        exact ⟨_, hSp, List.mem_append_left _ hm⟩
      · by_cases h4 : q = c
        · rw [h4] at hu ⊢; rw [hsc] at hu; cases hu
          exact ⟨_, hSc, hm⟩
        · exact ⟨u, by rw [hS q h3 h4]; exact hu, hm⟩
  · intro q v x hv hx
    have hold : ∀ w, shapeOf s q = some w → x ∈ w.2 → ∃ u, shapeOf (attach s p c pd cd) x = some u ∧ u.1 = some q := by
      intro w hw hm
      obtain ⟨u, hu, hu1⟩ := h.chi q w x hw hm
      by_cases h3 : x = p
      · rw [h3] at hu ⊢; rw [hsp] at hu; cases hu
        exact ⟨_, hSp, hu1⟩
      · by_cases h4 : x = c
        · rw [h4] at hu; rw [hsc] at hu; cases hu
          rw [hcp] at hu1; cases hu1
        · exact ⟨u, by rw [hS x h3 h4]; exact hu, hu1⟩
    by_cases h1 : q = p
    · rw [h1, hSp] at hv; cases hv
      rcases List.mem_append.1 hx with hx | hx
      · exact hold _ (h1 ▸ hsp) hx
      · rw [List.mem_singleton.1 hx, h1]; exact ⟨_, hSc, rfl⟩
    · obtain ⟨w, hw, hw2, -⟩ := hup q v hv
      exact hold w hw ((hw2 h1) ▸ hx)
  · intro q v hv
    by_cases h1 : q = p
    · rw [h1, hSp] at hv; cases hv
      have := h.nodup p _ hsp
      rw [List.nodup_append]
      refine ⟨this, by simp, ?_⟩
      intro a ha b hb hab
      rw [List.mem_singleton.1 hb] at hab
      exact hcn (hab ▸ ha)
    · obtain ⟨w, hw, hw2, -⟩ := hup q v hv
      rw [hw2 h1]; exact h.nodup q w hw
  · intro n v hv
    obtain ⟨w, hw, -⟩ := hup n v hv
    obtain ⟨d, hd⟩ := h.top n w hw
    obtain ⟨e, he⟩ := h.top p _ hsp
    rw [parentOf_eq] at ha
    exact Lv.hang hQ hQc (he.same hQ hpc ha) hd

theorem shape_detach {s : St} {n : Nat} {nd : Node} {l : Option Str} (x : Nat) :
    shapeOf (detach s n nd l) x =
      if x = n then none
      else match shapeOf s x with
        | none => none
        | some v => some (if nd.parent = some x then (v.1, v.2.erase n) else if nd.children.contains x then (none, v.2) else v) := by
  unfold shapeOf detach
  dsimp only
  by_cases h1 : x = n
  · simp [h1]
  · simp only [if_neg h1]
    cases s.node x with
    | none => rfl
    | some xd =>
      dsimp only
      split
      · rfl
      · split <;> rfl

theorem wf_detach {s : St} (h : WF s) {n : Nat} {nd : Node} (hn : s.node n = some nd) (l : Option Str) : WF (detach s n nd l) := by
  have hsn := shape_some hn
  have hinv : ∀ x v, shapeOf (detach s n nd l) x = some v → x ≠ n ∧ ∃ w, shapeOf s x = some w ∧
      v = if nd.parent = some x then (w.1, w.2.erase n) else if nd.children.contains x then (none, w.2) else w := by
    intro x v hv
    rw [shape_detach] at hv
    by_cases h1 : x = n
    · rw [if_pos h1] at hv; cases hv
    · rw [if_neg h1] at hv
      cases hw : shapeOf s x with
      | none => rw [hw] at hv; cases hv
      | some w => rw [hw] at hv; cases hv; exact ⟨h1, w, rfl, rfl⟩
  have hfor : ∀ x w, x ≠ n → shapeOf s x = some w → shapeOf (detach s n nd l) x =
      some (if nd.parent = some x then (w.1, w.2.erase n) else if nd.children.contains x then (none, w.2) else w) := by
    intro x w h1 hw
    rw [shape_detach, if_neg h1, hw]
  -- the parent is not among the children
  have hirr : ∀ x, nd.parent = some x → x ∉ nd.children := by
    intro x hx hm
    obtain ⟨w, hw, hw1⟩ := h.chi n _ x hsn hm
    obtain ⟨d, hd⟩ := h.lv hn
    refine Above.irrefl hd (Above.up (p := x) ?_ (Above.parent ?_))
    · rw [parentOf_some hn]; exact hx
    · rw [parentOf_eq]; unfold parSh; rw [hw]; exact hw1
  have hv1 : ∀ x (w : Option Nat × List Nat) (v : Option Nat × List Nat),
      v = (if nd.parent = some x then (w.1, w.2.erase n) else if nd.children.contains x then (none, w.2) else w) →
      (v.1 = w.1 ∨ (v.1 = none ∧ x ∈ nd.children)) ∧ (v.2 = w.2 ∧ nd.parent ≠ some x ∨ v.2 = w.2.erase n ∧ nd.parent = some x) := by
    intro x w v hv
    by_cases h1 : nd.parent = some x
    · rw [if_pos h1] at hv; rw [hv]; exact ⟨.inl rfl, .inr ⟨rfl, h1⟩⟩
    · rw [if_neg h1] at hv
      by_cases h2 : nd.children.contains x = true
      · rw [if_pos h2] at hv; rw [hv]; exact ⟨.inr ⟨rfl, List.contains_iff_mem.1 h2⟩, .inl ⟨rfl, h1⟩⟩
      · rw [if_neg h2] at hv; rw [hv]; exact ⟨.inl rfl, .inl ⟨rfl, h1⟩⟩
  constructor
  · intro x v hv
    obtain ⟨-, w, hw, -⟩ := hinv x v hv
    exact h.lt x w hw
  · intro x v p hv hvp
    obtain ⟨hxn, w, hw, e⟩ := hinv x v hv
    have h1 := (hv1 x w v e).1
    have hwp : w.1 = some p := by
      rcases h1 with h1 | h1
      · rw [← h1]; exact hvp
      · rw [h1.1] at hvp; cases hvp
    obtain ⟨u, hu, hm⟩ := h.par x w p hw hwp
    have hpn : p ≠ n := by
      rintro rfl
      rw [hsn] at hu; cases hu
      have hm' : x ∈ nd.children := hm
      have : v.1 = none := by
        rw [e, if_neg (fun hp => hirr x hp hm'), if_pos (List.contains_iff_mem.2 hm')]
      rw [this] at hvp; cases hvp
    refine ⟨_, hfor p u hpn hu, ?_⟩
    rcases (hv1 p u _ rfl).2 with h2 | h2
    · rw [h2.1]; exact hm
    · rw [h2.1]; exact (List.mem_erase_of_ne hxn).2 hm
  · intro p v c hv hc
    obtain ⟨hpn, w, hw, e⟩ := hinv p v hv
    have hnw : w.2.Nodup := h.nodup p w hw
    have hcw : c ∈ w.2 := by
      rcases (hv1 p w v e).2 with h2 | h2
      · rw [← h2.1]; exact hc
      · rw [h2.1] at hc; exact List.mem_of_mem_erase hc
    obtain ⟨u, hu, hu1⟩ := h.chi p w c hw hcw
    have hcn : c ≠ n := by
      rintro rfl
      rw [hsn] at hu; cases hu
      have h3 : nd.parent = some p := hu1
      have : v.2 = w.2.erase c := by rw [e, if_pos h3]
      rw [this] at hc
      exact List.Nodup.not_mem_erase hnw hc
    refine ⟨_, hfor c u hcn hu, ?_⟩
    have hcc : c ∉ nd.children := by
      intro hm
      obtain ⟨u', hu', hu1'⟩ := h.chi n _ c hsn hm
      rw [hu] at hu'; cases hu'
      rw [hu1] at hu1'; cases hu1'
      exact hpn rfl
    rcases (hv1 c u _ rfl).1 with h1 | h1
    · rw [h1]; exact hu1
    · exact absurd h1.2 hcc
  · intro p v hv
    obtain ⟨hpn, w, hw, e⟩ := hinv p v hv
    rcases (hv1 p w v e).2 with h2 | h2
    · rw [h2.1]; exact h.nodup p w hw
    · rw [h2.1]; exact (h.nodup p w hw).erase n
  · intro x v hv
    obtain ⟨hpn, w, hw, e⟩ := hinv x v hv
    obtain ⟨d, hd⟩ := h.top x w hw
    refine hd.cut ?_
    intro y
    unfold parSh
    cases hy : shapeOf (detach s n nd l) y with
    | none => right; rfl
    | some u =>
      obtain ⟨-, w', hw', e'⟩ := hinv y u hy
      rw [hw']
      rcases (hv1 y w' u e').1 with h1 | h1
      · left; exact h1
      · right; exact h1.1

/-! ### every step -/

theorem addChild_ok {s s' : St} {p c : Nat} (h : addChild s p c = .ok s') :
    ∃ pd cd, s.node p = some pd ∧ s.node c = some cd ∧ p ≠ c ∧ c ∉ ancestry s p ∧ checkChildren s c cd pd.children = .ok () ∧
      checkNames s pd.names (cd.name :: cd.aliases ++ [cd.name]) = .ok () ∧ cd.root = false ∧ cd.parent = none ∧
      s' = attach s p c pd cd := by
  unfold addChild at h
  split at h
  · rename_i pd cd hp hc
    by_cases h1 : p = c
    · rw [if_pos h1] at h; cases h
    rw [if_neg h1] at h
    by_cases h2 : (ancestry s p).contains c = true
    · rw [if_pos h2] at h; cases h
    rw [if_neg h2] at h
    split at h
    · cases h
    rename_i u hu
    split at h
    · cases h
    rename_i w hw
    by_cases h3 : cd.root = true
    · rw [if_pos h3] at h; cases h
    rw [if_neg h3] at h
    by_cases h4 : cd.parent.isSome = true
    · rw [if_pos h4] at h; cases h
    rw [if_neg h4] at h
    cases h
    refine ⟨pd, cd, hp, hc, h1, fun h => h2 (List.contains_iff_mem.2 h), hu, hw, by simpa using h3, ?_, rfl⟩
    cases hq : cd.parent with
    | none => rfl
    | some q => rw [hq] at h4; exact absurd rfl h4
  · cases h

theorem wf_addChild {s s' : St} (h : WF s) {p c : Nat} (ha : addChild s p c = .ok s') : WF s' := by
  obtain ⟨pd, cd, hp, hc, hpc, hanc, -, -, -, hcp, rfl⟩ := addChild_ok ha
  refine wf_attach h hp hc hpc ?_ hcp
  intro hab
  exact hanc ((h.mem_ancestry hp c).2 (.inr hab))

theorem construct_ok {s s' : St} {parent : Option Nat} {nd : Node} (h : construct s parent nd = .ok s') :
    validName nd.name = true ∧ validGroup nd.name nd.group nd.gidx = true ∧
    (parent = none ∧ s' = alloc s nd ∨
      ∃ p, parent = some p ∧ (s.node p).isSome = true ∧ addChild (alloc s nd) p s.next = .ok s') := by
  unfold construct at h
  by_cases h1 : (!(validName nd.name && validGroup nd.name nd.group nd.gidx)) = true
  · rw [if_pos h1] at h; cases h
  rw [if_neg h1] at h
  have hv : validName nd.name = true ∧ validGroup nd.name nd.group nd.gidx = true := by simpa using h1
  refine ⟨hv.1, hv.2, ?_⟩
  cases parent with
  | none => left; cases h; exact ⟨rfl, rfl⟩
  | some p =>
    right
    refine ⟨p, rfl, ?_⟩
    dsimp only at h
    cases hp : s.node p with
    | none => rw [hp] at h; cases h
    | some pd => rw [hp] at h; exact ⟨rfl, h⟩

theorem addAlias_ok {s s' : St} {n : Nat} {a : Str} (h : addAlias s n a = .ok s') :
    ∃ nd, s.node n = some nd ∧ nd.parent = none ∧ validName a = true ∧ a ≠ [] ∧ a ∉ nd.aliases ∧
      s' = { s with node := fun x => if x = n then some { nd with aliases := nd.aliases ++ [a] } else s.node x } := by
  unfold addAlias at h
  split at h
  · cases h
  rename_i nd hn
  by_cases h1 : nd.parent.isSome = true
  · rw [if_pos h1] at h; cases h
  rw [if_neg h1] at h
  by_cases h2 : (!validName a) = true
  · rw [if_pos h2] at h; cases h
  rw [if_neg h2] at h
  by_cases h3 : a = []
  · rw [if_pos h3] at h; cases h
  rw [if_neg h3] at h
  by_cases h4 : nd.aliases.contains a = true
  · rw [if_pos h4] at h; cases h
  rw [if_neg h4] at h
  cases h
  refine ⟨nd, hn, ?_, by simpa using h2, h3, fun h => h4 (List.contains_iff_mem.2 h), rfl⟩
  cases hq : nd.parent with
  | none => rfl
  | some q => rw [hq] at h1; exact absurd rfl h1

/-- `makePrivate` in one line -/
def privatized (s : St) (n : Nat) : St :=
  { s with node := fun x =>
      match s.node x with
      | none => none
      | some nd => some (if under s n x then { nd with priv := nd.priv + 1 } else nd) }

theorem makePrivate_ok {s s' : St} {n : Nat} (h : makePrivate s n = .ok s') :
    (∃ nd, s.node n = some nd) ∧ s' = privatized s n := by
  unfold makePrivate at h
  split at h
  · cases h
  · rename_i nd hn; cases h; exact ⟨⟨nd, hn⟩, rfl⟩

theorem destroy_ok {s s' : St} {n : Nat} (h : destroy s n = .ok s') :
    ∃ nd l, s.node n = some nd ∧ s' = detach s n nd l ∧ (nd.children ≠ [] → l = getLocation s n ∧ l.isSome = true) := by
  unfold destroy at h
  split at h
  · cases h
  rename_i nd hn
  by_cases h1 : nd.children = []
  · rw [if_pos h1] at h; cases h; exact ⟨nd, none, hn, rfl, fun h => absurd h1 h⟩
  · rw [if_neg h1] at h
    split at h
    · cases h
    · rename_i l hl; cases h; exact ⟨nd, some l, hn, rfl, fun _ => ⟨hl.symm, rfl⟩⟩

/-- a property that the successful operations keep holds after every step -/
theorem step_keeps {P : St → Prop} (hdead : ∀ s, P s → P { s with dead := true })
    (hnew : ∀ s parent nd s', P s → nd.parent = none → nd.children = [] → nd.names = [] → nd.ploc = none → nd.aliases = [] →
      nd.priv = 0 → (nd.root = true → parent = none) → construct s parent nd = .ok s' → P s')
    (halias : ∀ s n a s', P s → addAlias s n a = .ok s' → P s')
    (hadd : ∀ s p c s', P s → addChild s p c = .ok s' → P s')
    (hpriv : ∀ s n s', P s → makePrivate s n = .ok s' → P s')
    {s : St} {o : Op} (hdes : ∀ n s', o = .destroy n → P s → destroy s n = .ok s' → P s')
    (h : P s) : P (step s o).1 := by
  have hfin : ∀ (a : Ans) (r : Except Err St), (∀ s', r = .ok s' → P s') → P (finish s a r).1 := by
    intro a r hr
    cases r with
    | ok s' => exact hr s' rfl
    | error e => cases e with
      | throw => exact h
      | critical => exact hdead s h
      | ub => exact hdead s h
  unfold step
  by_cases hd : s.dead = true
  · rw [if_pos hd]; exact h
  rw [if_neg hd]
  cases o with
  | new p nm g i ix =>
    exact hfin _ _ (fun s' hs => hnew s p _ s' h rfl rfl rfl rfl rfl rfl (fun hr => by cases hr) hs)
  | newRoot nm =>
    exact hfin _ _ (fun s' hs => hnew s none _ s' h rfl rfl rfl rfl rfl rfl (fun _ => rfl) hs)
  | addAlias n a => exact hfin _ _ (fun s' hs => halias s n a s' h hs)
  | addChild p c => exact hfin _ _ (fun s' hs => hadd s p c s' h hs)
  | makePrivate n => exact hfin _ _ (fun s' hs => hpriv s n s' h hs)
  | destroy n => exact hfin _ _ (fun s' hs => hdes n s' rfl h hs)

theorem wf_construct {s s' : St} {parent : Option Nat} {nd : Node} (h : WF s) (hp : nd.parent = none) (hc : nd.children = [])
    (hs : construct s parent nd = .ok s') : WF s' := by
  rcases (construct_ok hs).2.2 with ⟨-, rfl⟩ | ⟨p, -, -, ha⟩
  · exact wf_alloc h hp hc
  · exact wf_addChild (wf_alloc h hp hc) ha

theorem shape_alias {s : St} {n : Nat} {nd : Node} (hn : s.node n = some nd) (a : Str) (x : Nat) :
    shapeOf { s with node := fun x => if x = n then some { nd with aliases := nd.aliases ++ [a] } else s.node x } x = shapeOf s x := by
  unfold shapeOf
  dsimp only
  by_cases h : x = n
  · rw [if_pos h, h, hn]
  · rw [if_neg h]

theorem shape_privatized {s : St} {n : Nat} (x : Nat) : shapeOf (privatized s n) x = shapeOf s x := by
  unfold shapeOf privatized
  dsimp only
  cases s.node x with
  | none => rfl
  | some nd => dsimp only; split <;> rfl

theorem wf_addAlias {s s' : St} {n : Nat} {a : Str} (h : WF s) (hs : addAlias s n a = .ok s') : WF s' := by
  obtain ⟨nd, hn, -, -, -, -, rfl⟩ := addAlias_ok hs
  exact h.congr (shape_alias hn a) rfl

theorem wf_makePrivate {s s' : St} {n : Nat} (h : WF s) (hs : makePrivate s n = .ok s') : WF s' := by
  obtain ⟨-, rfl⟩ := makePrivate_ok hs
  exact h.congr (fun x => shape_privatized x) rfl

theorem wf_destroy {s s' : St} {n : Nat} (h : WF s) (hs : destroy s n = .ok s') : WF s' := by
  obtain ⟨nd, l, hn, rfl, -⟩ := destroy_ok hs
  exact wf_detach h hn l

theorem wf_step {s : St} (o : Op) (h : WF s) : WF (step s o).1 :=
  step_keeps (P := WF) (fun _ h => h) (fun _ _ _ _ h hp hc _ _ _ _ _ hs => wf_construct h hp hc hs) (fun _ _ _ _ h hs => wf_addAlias h hs)
    (fun _ _ _ _ h hs => wf_addChild h hs) (fun _ _ _ h hs => wf_makePrivate h hs) (fun _ _ _ h hs => wf_destroy h hs) h

theorem wf_after (ops : List Op) : WF (after ops) :=
  runOps_invariant step WF (fun _ o h => wf_step o h) init wf_init ops

end Sparta.TNode
