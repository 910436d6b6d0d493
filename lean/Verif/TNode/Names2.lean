import Verif.TNode.Names
/-!
More invariants: names are valid; levels do not decrease downwards; without destructors the map is complete.
-/
namespace Sparta.TNode
open Sparta.Strings (Str)

/-- names and aliases have been checked -/
def Valid (s : St) : Prop := ∀ n nd, s.node n = some nd → validName nd.name = true ∧ validGroup nd.name nd.group nd.gidx = true ∧
  ∀ a ∈ nd.aliases, validName a = true ∧ a ≠ []

/-- children are at least as private as their parents -/
def Lvl (s : St) : Prop := ∀ c cd p pd, s.node c = some cd → cd.parent = some p → s.node p = some pd → pd.priv ≤ cd.priv

/-- every name of a child is entered -/
def Full (s : St) : Prop := ∀ c cd p pd k, s.node c = some cd → cd.parent = some p → s.node p = some pd → k ∈ keys cd → (k, c) ∈ pd.names

theorem valid_alloc {s : St} (h : Valid s) {nd : Node} (h1 : validName nd.name = true) (h2 : validGroup nd.name nd.group nd.gidx = true)
    (h3 : nd.aliases = []) : Valid (alloc s nd) := by
  intro n xd hx
  by_cases hn : n = s.next
  · rw [hn, alloc_next] at hx; cases hx
    exact ⟨h1, h2, by rw [h3]; exact fun a ha => nomatch ha⟩
  · rw [alloc_other hn] at hx; exact h n xd hx

theorem valid_attach {s : St} (h : Valid s) {p c : Nat} {pd cd : Node} (hp : s.node p = some pd) (hc : s.node c = some cd)
    (hpc : p ≠ c) : Valid (attach s p c pd cd) := by
  intro n xd hx
  obtain ⟨yd, hy, hs, -⟩ := attach_back hp hc hpc hx
  rw [hs.name, hs.group, hs.gidx, hs.aliases]
  exact h n yd hy

theorem valid_addChild {s s' : St} (h : Valid s) {p c : Nat} (ha : addChild s p c = .ok s') : Valid s' := by
  obtain ⟨pd, cd, hp, hc, hpc, -, -, -, -, -, rfl⟩ := addChild_ok ha
  exact valid_attach h hp hc hpc

theorem valid_step {s : St} (o : Op) (h : Valid s) : Valid (step s o).1 := by
  refine step_keeps (P := Valid) (fun _ h => h) ?_ ?_ ?_ ?_ ?_ h
  · intro s parent nd s' h hp hc hn _ ha _ _ hs
    obtain ⟨h1, h2, h3⟩ := construct_ok hs
    rcases h3 with ⟨-, rfl⟩ | ⟨p, -, -, had⟩
    · exact valid_alloc h h1 h2 ha
    · exact valid_addChild (valid_alloc h h1 h2 ha) had
  · intro s n a s' h hs
    obtain ⟨nd, hn, -, hv, ha, -, rfl⟩ := addAlias_ok hs
    intro x xd hx
    change (if x = n then _ else _) = _ at hx
    by_cases h1 : x = n
    · rw [if_pos h1] at hx; cases hx
      refine ⟨(h n nd hn).1, (h n nd hn).2.1, ?_⟩
      intro b hb
      rcases List.mem_append.1 hb with hb | hb
      · exact (h n nd hn).2.2 b hb
      · rw [List.mem_singleton.1 hb]; exact ⟨hv, ha⟩
    · rw [if_neg h1] at hx; exact h x xd hx
  · exact fun s p c s' h hs => valid_addChild h hs
  · intro s n s' h hs
    obtain ⟨-, rfl⟩ := makePrivate_ok hs
    intro x xd hx
    obtain ⟨yd, hy, hs, -⟩ := priv_back' hx
    rw [hs.name, hs.group, hs.gidx, hs.aliases]
    exact h x yd hy
  · intro n s' ho h hs
    obtain ⟨nd, l, hn, rfl, -⟩ := destroy_ok hs
    intro x xd hx
    obtain ⟨-, yd, hy, e⟩ := detach_back hx
    have := h x yd hy
    rw [e]
    split
    · exact this
    · split <;> exact this

theorem valid_after (ops : List Op) : Valid (after ops) :=
  runOps_invariant step Valid (fun _ o h => valid_step o h) init (fun n nd h => by cases h) ops

/-! ### levels -/

/-- the level after `attach` -/
theorem attach_priv {s : St} (hw : WF s) {p c x : Nat} {pd cd xd : Node} (hp : s.node p = some pd) (hc : s.node c = some cd) (hpc : p ≠ c)
    (ha : ¬ Above (parentOf s) c p) (hx : (attach s p c pd cd).node x = some xd) :
    ∃ yd, s.node x = some yd ∧ xd.priv = yd.priv + (if under s c x then pd.priv else 0) := by
  by_cases h1 : x = p
  · rw [h1, attach_p] at hx; cases hx
    refine ⟨pd, h1 ▸ hp, ?_⟩
    have : under s c x = false := by
      rw [h1]
      cases hu : under s c p with
      | false => rfl
      | true =>
        rcases (hw.under_iff hp c).1 hu with h2 | h2
        · exact absurd h2.symm hpc
        · exact absurd h2 ha
    rw [this]; rfl
  · by_cases h2 : x = c
    · rw [h2, attach_c hpc] at hx; cases hx
      refine ⟨cd, h2 ▸ hc, ?_⟩
      rw [h2, (hw.under_iff hc c).2 (.inl rfl)]; rfl
    · obtain ⟨yd, hy, e⟩ := attach_other h1 h2 hx
      refine ⟨yd, hy, ?_⟩
      rw [e]
      split <;> rfl

theorem priv_priv {s : St} {n x : Nat} {xd : Node} (hx : (privatized s n).node x = some xd) :
    ∃ yd, s.node x = some yd ∧ xd.priv = yd.priv + (if under s n x then 1 else 0) := by
  obtain ⟨yd, hy, e⟩ := priv_back hx
  refine ⟨yd, hy, ?_⟩
  rw [e]; split <;> rfl

theorem WF.under_child {s : St} (hw : WF s) {a c p : Nat} {cd pd : Node} (hc : s.node c = some cd) (hcp : cd.parent = some p)
    (hp : s.node p = some pd) (h : under s a p = true) : under s a c = true := by
  rw [hw.under_iff hc]
  right
  have h1 : parentOf s c = some p := by rw [parentOf_some hc]; exact hcp
  rcases (hw.under_iff hp a).1 h with h2 | h2
  · rw [h2]; exact .parent h1
  · exact .up h1 h2

theorem lvl_attach {s : St} (hw : WF s) (h : Lvl s) {p c : Nat} {pd cd : Node} (hp : s.node p = some pd) (hc : s.node c = some cd)
    (hpc : p ≠ c) (ha : ¬ Above (parentOf s) c p) : Lvl (attach s p c pd cd) := by
  intro x xd q qd hx hxq hq
  obtain ⟨yd, hy, -, hpar, hparc, -⟩ := attach_back hp hc hpc hx
  obtain ⟨yd', hy', e1⟩ := attach_priv hw hp hc hpc ha hx
  rw [hy] at hy'; cases hy'
  obtain ⟨zd, hz, e2⟩ := attach_priv hw hp hc hpc ha hq
  by_cases h2 : x = c
  · have h3 := hparc h2
    rw [hxq] at h3; cases h3
    rw [hp] at hz; cases hz
    have hn : under s c p = false := by
      cases hu : under s c p with
      | false => rfl
      | true =>
        rcases (hw.under_iff hp c).1 hu with h2 | h2
        · exact absurd h2.symm hpc
        · exact absurd h2 ha
    rw [h2, (hw.under_iff hc c).2 (.inl rfl), if_pos rfl] at e1
    rw [hn, if_neg (by simp)] at e2
    omega
  · rw [hpar h2] at hxq
    have := h x yd q zd hy hxq hz
    have hm : under s c q = true → under s c x = true := hw.under_child hy hxq hz
    rw [e1, e2]
    by_cases hu : under s c q = true
    · rw [if_pos hu, if_pos (hm hu)]; omega
    · rw [if_neg hu]; omega

theorem lvl_alloc {s : St} (hw : WF s) (h : Lvl s) {nd : Node} (hp : nd.parent = none) : Lvl (alloc s nd) := by
  intro c cd p pd hc hcp hpd
  by_cases hn : c = s.next
  · rw [hn, alloc_next] at hc; cases hc; rw [hp] at hcp; cases hcp
  · rw [alloc_other hn] at hc
    obtain ⟨pd', hpd', -⟩ := hw.parent_alive hc hcp
    rw [alloc_other (by rintro rfl; rw [hw.fresh] at hpd'; cases hpd')] at hpd
    exact h c cd p pd hc hcp hpd

theorem lvl_addChild {s s' : St} (hw : WF s) (h : Lvl s) {p c : Nat} (ha : addChild s p c = .ok s') : Lvl s' := by
  obtain ⟨pd, cd, hp, hc, hpc, hanc, -, -, -, hcp, rfl⟩ := addChild_ok ha
  exact lvl_attach hw h hp hc hpc (fun hab => hanc ((hw.mem_ancestry hp c).2 (.inr hab)))

theorem lvl_step {s : St} (o : Op) (hw : WF s) (h : Lvl s) : Lvl (step s o).1 := by
  refine (step_keeps (P := fun s => WF s ∧ Lvl s) (fun _ h => h) ?_ ?_ ?_ ?_ ?_ ⟨hw, h⟩).2
  · intro s parent nd s' h hp hc hn _ ha _ _ hs
    refine ⟨wf_construct h.1 hp hc hs, ?_⟩
    rcases (construct_ok hs).2.2 with ⟨-, rfl⟩ | ⟨p, -, -, had⟩
    · exact lvl_alloc h.1 h.2 hp
    · exact lvl_addChild (wf_alloc h.1 hp hc) (lvl_alloc h.1 h.2 hp) had
  · intro s n a s' h hs
    refine ⟨wf_addAlias h.1 hs, ?_⟩
    obtain ⟨nd, hn, -, -, -, -, rfl⟩ := addAlias_ok hs
    have hback : ∀ x xd, (if x = n then some { nd with aliases := nd.aliases ++ [a] } else s.node x) = some xd →
        ∃ yd, s.node x = some yd ∧ xd.parent = yd.parent ∧ xd.priv = yd.priv := by
      intro x xd hx
      by_cases h1 : x = n
      · rw [if_pos h1] at hx; cases hx
        exact ⟨nd, h1 ▸ hn, rfl, rfl⟩
      · rw [if_neg h1] at hx; exact ⟨xd, hx, rfl, rfl⟩
    intro c cd p pd hc hcp hp
    obtain ⟨yd, hy, e1, e2⟩ := hback c cd hc
    obtain ⟨zd, hz, -, e3⟩ := hback p pd hp
    rw [e2, e3]
    exact h.2 c yd p zd hy (e1 ▸ hcp) hz
  · exact fun s p c s' h hs => ⟨wf_addChild h.1 hs, lvl_addChild h.1 h.2 hs⟩
  · intro s n s' h hs
    refine ⟨wf_makePrivate h.1 hs, ?_⟩
    obtain ⟨-, rfl⟩ := makePrivate_ok hs
    intro c cd p pd hc hcp hp
    obtain ⟨yd, hy, -, e1, -⟩ := priv_back' hc
    obtain ⟨yd', hy', e2⟩ := priv_priv hc
    rw [hy] at hy'; cases hy'
    obtain ⟨zd, hz, e3⟩ := priv_priv hp
    rw [e1] at hcp
    have := h.2 c yd p zd hy hcp hz
    have hm : under s n p = true → under s n c = true := h.1.under_child hy hcp hz
    rw [e2, e3]
    by_cases hu : under s n p = true
    · rw [if_pos hu, if_pos (hm hu)]; omega
    · rw [if_neg hu]; omega
  · intro n s' ho h hs
    refine ⟨wf_destroy h.1 hs, ?_⟩
    obtain ⟨nd, l, hn, rfl, -⟩ := destroy_ok hs
    intro c cd p pd hc hcp hp
    obtain ⟨-, yd, hy, -, -, -, e1, e2, -⟩ := detach_back' hc
    obtain ⟨-, zd, hz, -, -, -, e3, -⟩ := detach_back' hp
    rw [e1, e3]
    refine h.2 c yd p zd hy ?_ hz
    rcases e2 with e2 | e2
    · rw [← e2]; exact hcp
    · rw [e2] at hcp; cases hcp

theorem lvl_after (ops : List Op) : Lvl (after ops) :=
  (runOps_invariant step (fun s => WF s ∧ Lvl s) (fun _ o h => ⟨wf_step o h.1, lvl_step o h.1 h.2⟩) init
    ⟨wf_init, fun c cd p pd h => by cases h⟩ ops).2

/-! ### all names -/

theorem full_alloc {s : St} (hw : WF s) (h : Full s) {nd : Node} (hp : nd.parent = none) : Full (alloc s nd) := by
  intro c cd p pd k hc hcp hpd hk
  by_cases hn : c = s.next
  · rw [hn, alloc_next] at hc; cases hc; rw [hp] at hcp; cases hcp
  · rw [alloc_other hn] at hc
    obtain ⟨pd', hpd', -⟩ := hw.parent_alive hc hcp
    rw [alloc_other (by rintro rfl; rw [hw.fresh] at hpd'; cases hpd')] at hpd
    exact h c cd p pd k hc hcp hpd hk

theorem full_addChild {s s' : St} (h : Full s) {p c : Nat} (ha : addChild s p c = .ok s') : Full s' := by
  obtain ⟨pd, cd, hp, hc, hpc, hanc, -, -, -, hcp, rfl⟩ := addChild_ok ha
  intro x xd q qd k hx hxq hq hk
  obtain ⟨yd, hy, hs, hpar, hparc, -⟩ := attach_back hp hc hpc hx
  obtain ⟨zd, hz, -, -, -, hn⟩ := attach_back hp hc hpc hq
  rw [hs.keys] at hk
  by_cases h2 : x = c
  · have h3 := hparc h2
    rw [hxq] at h3; cases h3
    rw [attach_p] at hq; cases hq
    rw [h2, hc] at hy; cases hy
    exact mem_insertNames.2 (.inl ⟨h2, hk⟩)
  · rw [hpar h2] at hxq
    have := h x yd q zd k hy hxq hz hk
    by_cases h1 : q = p
    · rw [h1, attach_p] at hq; cases hq
      rw [h1, hp] at hz; cases hz
      exact mem_insertNames.2 (.inr this)
    · rw [hn h1]; exact this

theorem full_step {s : St} {o : Op} (hw : WF s) (h : Full s) (hd : ∀ n, o ≠ .destroy n) : Full (step s o).1 := by
  refine (step_keeps (P := fun s => WF s ∧ Full s) (fun _ h => h) ?_ ?_ ?_ ?_ ?_ ⟨hw, h⟩).2
  · intro s parent nd s' h hp hc hn _ ha _ _ hs
    refine ⟨wf_construct h.1 hp hc hs, ?_⟩
    rcases (construct_ok hs).2.2 with ⟨-, rfl⟩ | ⟨p, -, -, had⟩
    · exact full_alloc h.1 h.2 hp
    · exact full_addChild (full_alloc h.1 h.2 hp) had
  · intro s n a s' h hs
    refine ⟨wf_addAlias h.1 hs, ?_⟩
    obtain ⟨nd, hn, hnp, -, -, -, rfl⟩ := addAlias_ok hs
    intro c cd p pd k hc hcp hp hk
    change (if c = n then _ else _) = _ at hc
    change (if p = n then _ else _) = _ at hp
    by_cases h1 : c = n
    · rw [if_pos h1] at hc; cases hc
      have : nd.parent = some p := hcp
      rw [hnp] at this; cases this
    · rw [if_neg h1] at hc
      by_cases h2 : p = n
      · rw [if_pos h2] at hp; cases hp
        exact h.2 c cd p nd k hc hcp (h2 ▸ hn) hk
      · rw [if_neg h2] at hp
        exact h.2 c cd p pd k hc hcp hp hk
  · exact fun s p c s' h hs => ⟨wf_addChild h.1 hs, full_addChild h.2 hs⟩
  · intro s n s' h hs
    refine ⟨wf_makePrivate h.1 hs, ?_⟩
    obtain ⟨-, rfl⟩ := makePrivate_ok hs
    intro c cd p pd k hc hcp hp hk
    obtain ⟨yd, hy, hs, e1, -⟩ := priv_back' hc
    obtain ⟨zd, hz, -, -, e3, -⟩ := priv_back' hp
    rw [e3]
    exact h.2 c yd p zd k hy (e1 ▸ hcp) hz (hs.keys ▸ hk)
  · exact fun n s' ho => absurd ho (hd n)

theorem full_run {s : St} (hw : WF s) (h : Full s) {ops : List Op} (hd : ∀ n, Op.destroy n ∉ ops) : Full (runOps step s ops).1 := by
  induction ops generalizing s with
  | nil => exact h
  | cons o os ih =>
    refine ih (wf_step o hw) (full_step hw h ?_) (fun n hn => hd n (List.mem_cons_of_mem _ hn))
    rintro n rfl
    exact hd n List.mem_cons_self

theorem full_after {ops : List Op} (hd : ∀ n, Op.destroy n ∉ ops) : Full (after ops) :=
  full_run wf_init (fun c cd p pd k h => by cases h) hd

theorem tidy_of_no_destroy {s : St} {ops : List Op} (hd : ∀ n, Op.destroy n ∉ ops) : Tidy s ops := by
  induction ops generalizing s with
  | nil => trivial
  | cons o os ih =>
    refine ⟨?_, ih (fun n hn => hd n (List.mem_cons_of_mem _ hn))⟩
    rintro n rfl
    exact absurd List.mem_cons_self (hd n)

/-! ### characters -/

theorem alphanum_ok {c : Char} (h : c ∈ alphanum) : c ∉ PTree.badChars ∧ c ≠ '*' ∧ c ≠ '?' ∧ c ≠ '+' ∧ c ≠ '.' ∧ c ≠ '\n' ∧ c ≠ '\r' := by
  have key : ∀ c ∈ alphanum, (!(PTree.badChars.contains c) && c != '*' && c != '?' && c != '+' && c != '.' && c != '\n' && c != '\r') = true := by
    decide
  have := key c h
  simp only [Bool.and_eq_true, bne_iff_ne, ne_eq, Bool.not_eq_true', List.contains_eq_mem, decide_eq_false_iff_not] at this
  obtain ⟨⟨⟨⟨⟨⟨h1, h2⟩, h3⟩, h4⟩, h5⟩, h6⟩, h7⟩ := this
  exact ⟨h1, h2, h3, h4, h5, h6, h7⟩

theorem validName_chars {nm : Str} (h : validName nm = true) : ∀ c ∈ nm, c ∈ alphanum := by
  unfold validName at h
  simp only [Bool.and_eq_true, List.all_eq_true] at h
  intro c hc
  exact List.contains_iff_mem.1 (h.2 c hc)

theorem validName_dot {nm : Str} (h : validName nm = true) : '.' ∉ nm := by
  intro hm
  exact (alphanum_ok (validName_chars h '.' hm)).2.2.2.2.1 rfl

theorem Valid.ident {s : St} (h : Valid s) {n : Nat} {nd : Node} (hn : s.node n = some nd) {k : Str} (hk : k ∈ idents nd) :
    validName k = true ∧ k ≠ [] := by
  rcases mem_idents.1 hk with h1 | h1
  · rw [h1.1]; exact ⟨(h n nd hn).1, h1.1 ▸ h1.2⟩
  · exact (h n nd hn).2.2 k h1

end Sparta.TNode
