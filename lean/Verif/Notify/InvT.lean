import Verif.Notify.Inv
/-! The invariant of the tree and its preservation by registration. -/
namespace Sparta.Notify
open Sparta.Strings (Str)
open Sparta.PTree (Glob OkName patMatches)

structure InvT (s : State) (w : World) : Prop where
  gk : s.gkids = []
  ents : ∀ e ∈ entsL [] s.roots, EntOK w e
  nodup : (idsL s.roots).Nodup
  ids : ∀ i, i ∈ idsL s.roots ↔ 0 < i ∧ i < s.next
  g : LinkOK w.regs (0, s.gobs)
  rnodup : w.regs.Nodup
  rpt : ∀ d ∈ w.regs, d.pt < s.next
  rname : ∀ d ∈ w.regs, Single d.name
  out : ∀ i, i ∉ idsL s.roots → w.srcs i = none ∧ w.par i = none ∧ w.posts i = 0
  next : 0 < s.next

/-- a registration concerns a node with these nodes above it -/
def Hit (d : Del) (ids : List Nat) : Prop := d.pt = 0 ∨ d.pt ∈ ids
instance (d ids) : Decidable (Hit d ids) := by unfold Hit; infer_instance

theorem link_skip {regs : List Del} {l d} (h : LinkOK regs l) (hd : d.pt ≠ l.1) : LinkOK (regs ++ [d]) l := by
  refine ⟨h.1, fun d' => ?_⟩
  rw [h.2, List.mem_append, List.mem_singleton]
  constructor
  · rintro ⟨h1, h2⟩
    exact ⟨.inl h1, h2⟩
  · rintro ⟨h1 | rfl, h2⟩
    · exact ⟨h1, h2⟩
    · exact absurd h2 hd

theorem link_add {regs : List Del} {n o d} (h : LinkOK regs (n, o)) (hd : d.pt = n) (hn : d ∉ regs) : LinkOK (regs ++ [d]) (n, o ++ [d]) := by
  constructor
  · show (o ++ [d]).Nodup
    rw [List.nodup_append]
    refine ⟨h.1, by simp, ?_⟩
    intro a ha b hb e
    rw [List.mem_singleton] at hb
    subst hb; subst e
    exact hn ((h.2 _).1 ha).1
  · intro d'
    show d' ∈ o ++ [d] ↔ _ ∧ d'.pt = n
    rw [List.mem_append, List.mem_append, List.mem_singleton, h.2]
    constructor
    · rintro (h1 | rfl)
      · exact ⟨.inl h1.1, h1.2⟩
      · exact ⟨.inr rfl, hd⟩
    · rintro ⟨h1 | h1, h2⟩
      · exact .inl ⟨h1, h2⟩
      · exact .inr h1

theorem link_modAdd {regs : List Del} {l d} (h : LinkOK regs l) (hn : d ∉ regs) : LinkOK (regs ++ [d]) (modLink d.pt (· ++ [d]) l) := by
  rw [modLink]
  split
  · rename_i e
    exact link_add h e.symm hn
  · rename_i e
    exact link_skip h (fun x => e x.symm)

theorem link_modDel {regs : List Del} {l d} (h : LinkOK regs l) (hr : regs.Nodup) : LinkOK (regs.erase d) (modLink d.pt (·.erase d) l) := by
  rw [modLink]
  split
  · rename_i e
    refine ⟨h.1.erase d, fun d' => ?_⟩
    show d' ∈ l.2.erase d ↔ _ ∧ d'.pt = l.1
    rw [h.1.mem_erase_iff, h.2, hr.mem_erase_iff, and_assoc]
  · rename_i e
    refine ⟨h.1, fun d' => ?_⟩
    rw [h.2, hr.mem_erase_iff, and_assoc]
    constructor
    · rintro ⟨h1, h2⟩
      exact ⟨fun x => e (by rw [← h2, x]), h1, h2⟩
    · rintro ⟨-, h1⟩
      exact h1

theorem src_skip {regs : List Del} {ids x d} (h : SrcOK regs ids x)
    (hd : ¬ (d.ty = x.ty ∧ (d.pt = 0 ∨ d.pt ∈ ids) ∧ catMatch d.name x.name = true)) : SrcOK (regs ++ [d]) ids x := by
  refine ⟨h.nodup, fun d' => ?_, h.nnodup, h.nmem, h.obs⟩
  rw [h.mem, List.mem_append, List.mem_singleton]
  constructor
  · rintro ⟨h1, h2⟩
    exact ⟨.inl h1, h2⟩
  · rintro ⟨h1 | rfl, h2⟩
    · exact ⟨h1, h2⟩
    · exact absurd h2 hd

theorem src_skipDel {regs : List Del} {ids x d} (h : SrcOK regs ids x) (hr : regs.Nodup)
    (hd : ¬ (d.ty = x.ty ∧ (d.pt = 0 ∨ d.pt ∈ ids) ∧ catMatch d.name x.name = true)) : SrcOK (regs.erase d) ids x := by
  refine ⟨h.nodup, fun d' => ?_, h.nnodup, h.nmem, h.obs⟩
  rw [h.mem, hr.mem_erase_iff, and_assoc]
  constructor
  · rintro ⟨h1, h2⟩
    exact ⟨fun x => hd (x ▸ h2), h1, h2⟩
  · rintro ⟨-, h1⟩
    exact h1

theorem any_canGen {x : Src} {ty name} : [name].any (canGen (some x) ty) = true ↔ ty = x.ty ∧ catMatch name x.name = true := by
  rw [List.any_cons, List.any_nil, Bool.or_false, canGen, Bool.and_eq_true, beq_iff_eq]
  exact ⟨fun h => ⟨h.1.symm, h.2⟩, fun h => ⟨h.1.symm, h.2⟩⟩

/-- what a registration makes of a node -/
def hitAdd (d : Del) (e : Ent) : Ent := if Hit d e.ids then addEnt d [d.name] e else e
def hitDel (d : Del) (e : Ent) : Ent := if Hit d e.ids then delEnt d [d.name] e else e
def hitAddEv (d : Del) (e : Ent) : List Ev := if Hit d e.ids then addEv d [d.name] e else []
def hitDelEv (d : Del) (e : Ent) : List Ev := if Hit d e.ids then delEv d [d.name] e else []

theorem addHere_some {d names i x} : ∃ y, (addHere d names i (some x)).1 = some y ∧ y.ty = x.ty ∧ y.name = x.name ∧ y.posts = x.posts := by
  rw [addHere]
  split
  · exact ⟨_, rfl, rfl, rfl, rfl⟩
  · exact ⟨_, rfl, rfl, rfl, rfl⟩

theorem delHere_some {d names i x} : ∃ y, (delHere d names i (some x)).1 = some y ∧ y.ty = x.ty ∧ y.name = x.name ∧ y.posts = x.posts := by
  rw [delHere]
  split
  · exact ⟨_, rfl, rfl, rfl, rfl⟩
  · exact ⟨_, rfl, rfl, rfl, rfl⟩

theorem hitAdd_chain (d e) : (hitAdd d e).chain = e.chain ∧ (hitAdd d e).id = e.id := by
  rw [hitAdd]
  split <;> exact ⟨rfl, rfl⟩

theorem hitDel_chain (d e) : (hitDel d e).chain = e.chain ∧ (hitDel d e).id = e.id := by
  rw [hitDel]
  split <;> exact ⟨rfl, rfl⟩

theorem hitAdd_src (d : Del) (e : Ent) : (e.src = none ∧ (hitAdd d e).src = none) ∨ ∃ x y, e.src = some x ∧ (hitAdd d e).src = some y ∧
    y.ty = x.ty ∧ y.name = x.name ∧ y.posts = x.posts ∧
    (Hit d e.ids ∧ d.ty = x.ty ∧ catMatch d.name x.name = true ∧ y = (obsAdded e.id x d.pt d).1 ∨
     ¬ (d.ty = x.ty ∧ Hit d e.ids ∧ catMatch d.name x.name = true) ∧ y = x) := by
  cases hx : e.src with
  | none =>
    left
    rw [hitAdd]
    split
    · simp [addEnt, hx, addHere]
    · exact ⟨rfl, hx⟩
  | some x =>
    right
    rw [hitAdd]
    split
    · rename_i hh
      simp only [addEnt, hx, addHere]
      by_cases hc : [d.name].any (canGen (some x) d.ty) = true
      · rw [if_pos hc]
        rw [any_canGen] at hc
        exact ⟨x, _, rfl, rfl, rfl, rfl, rfl, .inl ⟨hh, hc.1, hc.2, rfl⟩⟩
      · rw [if_neg hc]
        rw [any_canGen] at hc
        exact ⟨x, x, rfl, rfl, rfl, rfl, rfl, .inr ⟨fun h => hc ⟨h.1, h.2.2⟩, rfl⟩⟩
    · rename_i hh
      exact ⟨x, x, rfl, hx, rfl, rfl, rfl, .inr ⟨fun h => hh h.2.1, rfl⟩⟩

theorem hitDel_src (d : Del) (e : Ent) : (e.src = none ∧ (hitDel d e).src = none) ∨ ∃ x y, e.src = some x ∧ (hitDel d e).src = some y ∧
    y.ty = x.ty ∧ y.name = x.name ∧ y.posts = x.posts ∧
    (Hit d e.ids ∧ d.ty = x.ty ∧ catMatch d.name x.name = true ∧ y = (obsRemoved e.id x d.pt d).1 ∨
     ¬ (d.ty = x.ty ∧ Hit d e.ids ∧ catMatch d.name x.name = true) ∧ y = x) := by
  cases hx : e.src with
  | none =>
    left
    rw [hitDel]
    split
    · simp [delEnt, hx, delHere]
    · exact ⟨rfl, hx⟩
  | some x =>
    right
    rw [hitDel]
    split
    · rename_i hh
      simp only [delEnt, hx, delHere]
      by_cases hc : [d.name].any (canGen (some x) d.ty) = true
      · rw [if_pos hc]
        rw [any_canGen] at hc
        exact ⟨x, _, rfl, rfl, rfl, rfl, rfl, .inl ⟨hh, hc.1, hc.2, rfl⟩⟩
      · rw [if_neg hc]
        rw [any_canGen] at hc
        exact ⟨x, x, rfl, rfl, rfl, rfl, rfl, .inr ⟨fun h => hc ⟨h.1, h.2.2⟩, rfl⟩⟩
    · rename_i hh
      exact ⟨x, x, rfl, hx, rfl, rfl, rfl, .inr ⟨fun h => hh h.2.1, rfl⟩⟩

theorem modEnt_src (n f e) : (modEnt n f id e).src = e.src := by
  simp [modEnt]

/-- a node after a registration -/
theorem ent_add {w : World} {e : Ent} (h : EntOK w e) {d : Del} (hd : d ∉ w.regs) :
    EntOK { w with regs := w.regs ++ [d] } (hitAdd d (modEnt d.pt (· ++ [d]) id e)) := by
  have hc : (hitAdd d (modEnt d.pt (· ++ [d]) id e)).chain = e.chain.map (modLink d.pt (· ++ [d])) := by
    rw [(hitAdd_chain _ _).1, modEnt_chain]
  have hi : (hitAdd d (modEnt d.pt (· ++ [d]) id e)).ids = e.ids := by
    rw [Ent.ids, (hitAdd_chain _ _).1, ← Ent.ids, modEnt_ids]
  have hid : (hitAdd d (modEnt d.pt (· ++ [d]) id e)).id = e.id := (hitAdd_chain _ _).2
  have hs := hitAdd_src d (modEnt d.pt (· ++ [d]) id e)
  rw [modEnt_src, modEnt_ids] at hs
  refine ⟨⟨by rw [hi]; exact h.chain, by rw [hi]; exact h.pos, ?_, ?_, ?_⟩, ?_⟩
  · intro l hl
    rw [hc] at hl
    obtain ⟨l0, h0, rfl⟩ := List.mem_map.1 hl
    exact link_modAdd (h.links l0 h0) hd
  · rw [hid]
    show w.srcs e.id = _
    rw [h.srcs]
    rcases hs with ⟨h1, h2⟩ | ⟨x, y, h1, h2, h3, h4, -⟩
    · rw [h1, h2]
    · rw [h1, h2]; simp [h3, h4]
  · intro y hy
    rw [hid]
    rcases hs with ⟨h1, h2⟩ | ⟨x, y', h1, h2, h3, h4, h5, -⟩
    · rw [h2] at hy; cases hy
    · rw [h2] at hy
      cases hy
      rw [h5]
      exact h.posts x h1
  · intro y hy
    rw [hi]
    rcases hs with ⟨h1, h2⟩ | ⟨x, y', h1, h2, h3, h4, h5, h6⟩
    · rw [h2] at hy; cases hy
    · rw [h2] at hy
      cases hy
      rcases h6 with ⟨a, b, c, rfl⟩ | ⟨a, rfl⟩
      · exact obsAdded_ok (h.src x h1) _ hd b a c
      · exact src_skip (h.src _ h1) a

theorem ent_del {w : World} {e : Ent} (h : EntOK w e) (hr : w.regs.Nodup) (d : Del) :
    EntOK { w with regs := w.regs.erase d } (modEnt d.pt (·.erase d) id (hitDel d e)) := by
  have hc : (modEnt d.pt (·.erase d) id (hitDel d e)).chain = e.chain.map (modLink d.pt (·.erase d)) := by
    rw [modEnt_chain, (hitDel_chain _ _).1]
  have hi : (modEnt d.pt (·.erase d) id (hitDel d e)).ids = e.ids := by
    rw [modEnt_ids, Ent.ids, (hitDel_chain _ _).1, ← Ent.ids]
  have hid : (modEnt d.pt (·.erase d) id (hitDel d e)).id = e.id := (hitDel_chain _ _).2
  have hs := hitDel_src d e
  have hss := modEnt_src d.pt (·.erase d) (hitDel d e)
  refine ⟨⟨by rw [hi]; exact h.chain, by rw [hi]; exact h.pos, ?_, ?_, ?_⟩, ?_⟩
  · intro l hl
    rw [hc] at hl
    obtain ⟨l0, h0, rfl⟩ := List.mem_map.1 hl
    exact link_modDel (h.links l0 h0) hr
  · rw [hid, hss]
    show w.srcs e.id = _
    rw [h.srcs]
    rcases hs with ⟨h1, h2⟩ | ⟨x, y, h1, h2, h3, h4, -⟩
    · rw [h1, h2]
    · rw [h1, h2]; simp [h3, h4]
  · intro y hy
    rw [hss] at hy
    rw [hid]
    rcases hs with ⟨h1, h2⟩ | ⟨x, y', h1, h2, h3, h4, h5, -⟩
    · rw [h2] at hy; cases hy
    · rw [h2] at hy
      cases hy
      rw [h5]
      exact h.posts x h1
  · intro y hy
    rw [hi]
    rw [hss] at hy
    rcases hs with ⟨h1, h2⟩ | ⟨x, y', h1, h2, h3, h4, h5, h6⟩
    · rw [h2] at hy; cases hy
    · rw [h2] at hy
      cases hy
      rcases h6 with ⟨a, b, c, rfl⟩ | ⟨a, rfl⟩
      · exact obsRemoved_ok (h.src x h1) hr _ _
      · exact src_skipDel (h.src _ h1) hr a

/-! ### the state -/

theorem get_eq {s : State} (hg : s.gkids = []) (n : Nat) : s.get n = findL n s.roots := by
  rw [State.get, hg]
  cases findL n s.roots <;> rfl

theorem get_none {s w} (h : InvT s w) (n : Nat) : s.get n = none ↔ ¬ (0 < n ∧ n < s.next) := by
  rw [get_eq h.gk, findL_none, h.ids]

theorem get_some {s w} (h : InvT s w) {n t} (hg : s.get n = some t) : ∃ e ∈ entsL [] s.roots, e.id = n ∧ e.obs = t.obs ∧ e.src = t.src := by
  rw [get_eq h.gk] at hg
  obtain ⟨h1, ab, -, h2⟩ := findL_some n [] s.roots t hg
  exact ⟨_, h2, h1, rfl, rfl⟩

theorem obsAt_none {s w} (h : InvT s w) (n : Nat) : s.obsAt n = none ↔ ¬ n < s.next := by
  rw [State.obsAt]
  have := h.next
  split
  · rename_i e
    subst e
    simp [this]
  · rw [Option.map_eq_none_iff, get_none h]
    omega

theorem obsAt_some {s w} (h : InvT s w) {n obs} (ho : s.obsAt n = some obs) : LinkOK w.regs (n, obs) := by
  rw [State.obsAt] at ho
  split at ho
  · rename_i e
    cases ho
    rw [e]
    exact h.g
  · obtain ⟨t, h1, rfl⟩ := Option.map_eq_some_iff.1 ho
    obtain ⟨e, h2, h3, h4, -⟩ := get_some h h1
    have := (h.ents e h2).links (e.id, e.obs) (by simp [Ent.chain])
    rw [h3, h4] at this
    exact this

theorem entsL_modify0 (n f g ts) : entsL [] (modifyL n f g ts) = (entsL [] ts).map (modEnt n f g) := entsL_modify n f g [] ts

theorem entsL_map (ab) (F : Tree → Tree) (h : Ent → Ent) (hF : ∀ t, ents ab (F t) = (ents ab t).map h) :
    ∀ ts : List Tree, entsL ab (ts.map F) = (entsL ab ts).map h
  | [] => rfl
  | t :: ts => by simp [entsL, hF t, entsL_map ab F h hF ts]

theorem evsL_map (ab) (F : Tree → List Ev) (h : Ent → List Ev) (hF : ∀ t, F t = (ents ab t).flatMap h) :
    ∀ ts : List Tree, ts.flatMap F = (entsL ab ts).flatMap h
  | [] => rfl
  | t :: ts => by simp [entsL, hF t, evsL_map ab F h hF ts]

theorem map_congr_mem {α β} {f g : α → β} : ∀ {l : List α}, (∀ a ∈ l, f a = g a) → l.map f = l.map g
  | [], _ => rfl
  | a :: l, h => by simp [h a (by simp), map_congr_mem (fun b hb => h b (List.mem_cons_of_mem _ hb))]

theorem flatMap_congr_mem {α β} {f g : α → List β} : ∀ {l : List α}, (∀ a ∈ l, f a = g a) → l.flatMap f = l.flatMap g
  | [], _ => rfl
  | a :: l, h => by
    rw [List.flatMap_cons, List.flatMap_cons, h a (by simp), flatMap_congr_mem (fun b hb => h b (List.mem_cons_of_mem _ hb))]

/-- nodes of a subtree have its root above them -/
theorem ents_root_id {ab t x} (h : x ∈ ents ab t) : t.id ∈ x.ids := by
  obtain ⟨l, hl⟩ := ents_suffix ab t x h
  rw [Ent.ids, hl]
  simp

theorem hit_iff {d : Del} {ids : List Nat} (hn : d.pt ≠ 0) : Hit d ids ↔ d.pt ∈ ids := by simp [Hit, hn]

/-- a broadcast over all nodes that it concerns -/
theorem bcast_ents {s : State} (hg : s.gkids = []) {d : Del} {F : Tree → Tree × List Ev} {h : Ent → Ent} {ev : Ent → List Ev}
    (hF : ∀ ab, ∀ t, ents ab (F t).1 = (ents ab t).map h ∧ (F t).2 = (ents ab t).flatMap ev) :
    ∃ roots', (s.bcast d.pt F).1 = { s with roots := roots' } ∧
      entsL [] roots' = (entsL [] s.roots).map (fun e => if Hit d e.ids then h e else e) ∧
      (s.bcast d.pt F).2 = (entsL [] s.roots).flatMap (fun e => if Hit d e.ids then ev e else []) := by
  rw [State.bcast]
  split
  · rename_i h0
    refine ⟨_, rfl, ?_, ?_⟩
    · rw [entsL_map [] (fun t => (F t).1) h (fun t => (hF [] t).1)]
      exact map_congr_mem (fun e _ => by rw [if_pos (.inl h0)])
    · show s.roots.flatMap (fun t => (F t).2) = _
      rw [evsL_map [] (fun t => (F t).2) ev (fun t => (hF [] t).2)]
      exact flatMap_congr_mem (fun e _ => by rw [if_pos (.inl h0)])
  · rename_i h0
    refine ⟨(onNodeL d.pt F s.roots).1, ?_, ?_, ?_⟩
    · rw [State.onNode, hg]
      simp [onNodeL, ← hg]
    · refine entsL_onNode d.pt F _ (fun ab t ht => ?_) (fun e he => ?_) [] s.roots (by simp)
      · rw [(hF ab t).1]
        refine map_congr_mem (fun e he => ?_)
        rw [if_pos (.inr (ht ▸ ents_root_id he))]
      · rw [if_neg (fun hh => he ((hit_iff h0).1 hh))]
    · rw [State.onNode, hg]
      simp only [onNodeL, List.append_nil]
      refine evsL_onNode d.pt F _ (fun ab t ht => ?_) (fun e he => ?_) [] s.roots (by simp)
      · rw [(hF ab t).2]
        refine flatMap_congr_mem (fun e he => ?_)
        rw [if_pos (.inr (ht ▸ ents_root_id he))]
      · rw [if_neg (fun hh => he ((hit_iff h0).1 hh))]

theorem onNodeL_congr {n} {F G : Tree → Tree × List Ev} : ∀ {ts : List Tree}, pubL ts → (∀ t, pub t → F t = G t) →
    onNodeL n F ts = onNodeL n G ts := by
  intro ts hp hFG
  have key : (∀ t, pub t → onNode n F t = onNode n G t) ∧ True := ⟨fun t => by
    refine Tree.rec (motive_1 := fun t => pub t → onNode n F t = onNode n G t)
      (motive_2 := fun ts => pubL ts → onNodeL n F ts = onNodeL n G ts) ?_ ?_ ?_ t
    · intro i p o s kids ih hp
      rw [onNode, onNode]
      split
      · exact hFG _ hp
      · rw [ih hp.2]
    · intro _; rfl
    · intro t ts ih1 ih2 hp
      rw [onNodeL, onNodeL, ih1 hp.1, ih2 hp.2], trivial⟩
  induction ts with
  | nil => rfl
  | cons t ts ih => rw [onNodeL, onNodeL, key.1 t hp.1, ih hp.2]

theorem bcast_congr {s : State} (hg : s.gkids = []) {n} {F G : Tree → Tree × List Ev} (hp : pubL s.roots) (h : ∀ t, pub t → F t = G t) :
    s.bcast n F = s.bcast n G := by
  rw [State.bcast, State.bcast]
  split
  · rw [map_congr_mem (f := fun t => (F t).1) (g := fun t => (G t).1) (fun t ht => by rw [h t (pubL_mem.1 hp t ht)]),
      flatMap_congr_mem (f := fun t => (F t).2) (g := fun t => (G t).2) (fun t ht => by rw [h t (pubL_mem.1 hp t ht)])]
  · rw [State.onNode, State.onNode, hg, onNodeL_congr hp h]
    rfl

/-- changing the observers registered at a node -/
theorem modObs_ents {s : State} (hg : s.gkids = []) (n : Nat) (f : List Del → List Del) (h0 : ∀ e ∈ entsL [] s.roots, 0 ∉ e.ids) :
    ∃ roots' gobs', s.modObs n f = { s with roots := roots', gobs := gobs' } ∧
      entsL [] roots' = (entsL [] s.roots).map (modEnt n f id) ∧ (0, gobs') = modLink n f (0, s.gobs) ∧
      (pubL s.roots → pubL roots') := by
  rw [State.modObs]
  split
  · rename_i hn
    subst hn
    refine ⟨s.roots, f s.gobs, by simp, ?_, by simp [modLink], id⟩
    have : ∀ e ∈ entsL [] s.roots, modEnt 0 f id e = e := by
      intro e he
      have hp := h0 e he
      have h1 : e.id ≠ 0 := fun x => hp (by simp [Ent.ids, Ent.chain, x])
      have h2 : e.above.map (modLink 0 f) = e.above := by
        conv => rhs; rw [← List.map_id e.above]
        refine map_congr_mem (fun l hl => ?_)
        rw [modLink, if_neg]
        · rfl
        · intro x
          exact hp (by simp only [Ent.ids, Ent.chain, List.map_cons, List.mem_cons, List.mem_map]; exact .inr ⟨l, hl, x⟩)
      cases e
      simp_all [modEnt]
    conv => lhs; rw [← List.map_id (entsL [] s.roots)]
    exact map_congr_mem (fun e he => (this e he).symm)
  · rename_i hn
    refine ⟨modifyL n f id s.roots, s.gobs, ?_, entsL_modify0 _ _ _ _, by simp [modLink, Ne.symm hn], pubL_modify _ _ _ _⟩
    rw [State.modify, hg]
    simp [modifyL, ← hg]

theorem possible_pub {s w} (h : InvT s w) (hp : pubL s.roots) {n ty name} (hn : n < s.next) :
    s.possible n ty name = true ↔ n ≠ 0 ∧ ∃ e ∈ entsL [] s.roots, n ∈ e.ids ∧ canGen e.src ty name = true := by
  rw [State.possible]
  split
  · rename_i e
    simp [h.gk, canSubL, e]
  · rename_i hn0
    cases hg : s.get n with
    | none => rw [get_none h] at hg; omega
    | some t =>
      rw [get_eq h.gk] at hg
      obtain ⟨h1, ab, h2, h3⟩ := findL_some n [] s.roots t hg
      have hpt : pub t := by
        have key : ∀ (ts : List Tree) (r : Tree), pubL ts → findL n ts = some r → pub r := by
          intro ts
          refine Tree.rec_1 (motive_1 := fun t => ∀ r, pub t → find n t = some r → pub r)
            (motive_2 := fun ts => ∀ r, pubL ts → findL n ts = some r → pub r) ?_ ?_ ?_ ts
          · intro i p o s kids ih r hp hf
            rw [find] at hf
            split at hf
            · cases hf; exact hp
            · exact ih r hp.2 hf
          · intro r _ hf; cases hf
          · intro t ts ih1 ih2 r hp hf
            rw [findL] at hf
            split at hf
            · rename_i hr
              cases hf
              exact ih1 _ hp.1 hr
            · exact ih2 r hp.2 hf
        exact key _ _ hp hg
      show canSub ty name t = true ↔ _
      rw [canSub_pub ty name ab t hpt]
      constructor
      · rintro ⟨e, he, hc⟩
        exact ⟨hn0, e, h2 e he, h1 ▸ ents_root_id he, hc⟩
      · rintro ⟨-, e, he, hi, hc⟩
        obtain ⟨r, ab', hr, hx⟩ := findL_below n [] s.roots e h.nodup (by simp) he hi
        rw [hg] at hr
        cases hr
        have : e.src ∈ (ents ab t).map (·.src) := by
          have h4 := ents_lift ab [] t
          have h5 := ents_lift ab' [] t
          rw [List.nil_append] at h4 h5
          rw [h5] at hx
          obtain ⟨e0, h6, rfl⟩ := List.mem_map.1 hx
          rw [h4]
          exact List.mem_map.2 ⟨_, List.mem_map.2 ⟨e0, h6, rfl⟩, rfl⟩
        obtain ⟨e', he', hee⟩ := List.mem_map.1 this
        exact ⟨e', he', by rw [hee]; exact hc⟩

theorem hitAdd_fun (d : Del) : (fun e : Ent => if Hit d e.ids then addEnt d [d.name] e else e) = hitAdd d := rfl
theorem hitDel_fun (d : Del) : (fun e : Ent => if Hit d e.ids then delEnt d [d.name] e else e) = hitDel d := rfl

theorem addEv_mod (d names n f e) : addEv d names (modEnt n f id e) = addEv d names e := by
  rw [addEv, addEv, modEnt_src]
  rfl

theorem map_id_eq {h : Ent → Ent} (hh : ∀ e, (h e).id = e.id) (l : List Ent) : (l.map h).map (·.id) = l.map (·.id) := by
  rw [List.map_map]
  exact map_congr_mem (fun e _ => hh e)

/-- registration: refused, or every source concerned knows the observer -/
theorem register_inv {s w} (h : InvT s w) {n cb ty name ensure all} (hs : Single name) (hall : all = true ∨ pubL s.roots)
    (hn : n < s.next) :
    if (ensure && !s.possible n ty name) = true ∨ (⟨cb, ty, n, name⟩ : Del) ∈ w.regs then
      register s n cb ty name ensure all = (s, .error)
    else ∃ roots' gobs', register s n cb ty name ensure all =
        ({ s with roots := roots', gobs := gobs' }, .events ((entsL [] s.roots).flatMap (hitAddEv ⟨cb, ty, n, name⟩))) ∧
      InvT { s with roots := roots', gobs := gobs' } { w with regs := w.regs ++ [⟨cb, ty, n, name⟩] } ∧
      (pubL s.roots → pubL roots') := by
  cases ho : s.obsAt n with
  | none => exact absurd hn ((obsAt_none h n).1 ho)
  | some obs =>
    have hl := obsAt_some h ho
    rw [register, ho]
    have hmem : (⟨cb, ty, n, name⟩ : Del) ∈ w.regs ↔ obs.contains (⟨cb, ty, n, name⟩ : Del) = true := by
      rw [List.contains_iff_mem, hl.2]
      simp
    by_cases h1 : (ensure && !s.possible n ty name) = true
    · rw [if_pos (.inl h1)]
      show (if _ then _ else _) = _
      rw [if_pos h1]
    · by_cases h2 : (⟨cb, ty, n, name⟩ : Del) ∈ w.regs
      · rw [if_pos (.inr h2)]
        show (if _ then _ else _) = _
        rw [if_neg h1, if_pos (hmem.1 h2)]
      · rw [if_neg (by rintro (x | x) <;> contradiction)]
        simp only [if_neg h1, if_neg (fun x => h2 (hmem.2 x)), parse_single hs]
        generalize hd : (⟨cb, ty, n, name⟩ : Del) = d
        rw [hd] at h2
        have hpt : d.pt = n := by rw [← hd]
        have hnm : d.name = name := by rw [← hd]
        obtain ⟨r1, g1, e1, e2, e3, e4⟩ := modObs_ents h.gk n (· ++ [d]) (fun e he => (h.ents e he).pos)
        rw [e1]
        have hgk : ({ s with roots := r1, gobs := g1 } : State).gkids = [] := h.gk
        have hall' : ({ s with roots := r1, gobs := g1 } : State).bcast n (bcastAdd d [name] all) =
            ({ s with roots := r1, gobs := g1 } : State).bcast n (bcastAdd d [name] true) := by
          rcases hall with rfl | hp
          · rfl
          · cases all with
            | true => rfl
            | false => exact bcast_congr hgk (e4 hp) (fun t ht => bcastAdd_pub d [name] t ht)
        rw [hall']
        obtain ⟨r2, f1, f2, f3⟩ := bcast_ents (d := d) hgk (fun ab t => ents_bcastAdd d [name] ab t)
        rw [hpt] at f1 f3
        refine ⟨r2, g1, ?_, ?_, ?_⟩
        · rw [f1, f3, e2, List.flatMap_map]
          congr 2
          refine flatMap_congr_mem (fun e _ => ?_)
          rw [hitAddEv, modEnt_ids, hnm]
          split
          · exact addEv_mod _ _ _ _ _
          · rfl
        · rw [← hnm] at f2
          rw [hitAdd_fun] at f2
          have f4 : entsL [] r2 = (entsL [] s.roots).map (fun e => hitAdd d (modEnt d.pt (· ++ [d]) id e)) := by
            rw [f2]
            show (entsL [] r1).map _ = _
            rw [e2, List.map_map, hpt]
            rfl
          have fid : idsL r2 = idsL s.roots := by
            rw [idsL, f4]
            exact map_id_eq (h := fun e => hitAdd d (modEnt d.pt (· ++ [d]) id e)) (fun e => (hitAdd_chain _ _).2) _
          refine ⟨h.gk, ?_, by rw [fid]; exact h.nodup, by rw [fid]; exact h.ids, ?_, ?_, ?_, ?_, by rw [fid]; exact h.out, h.next⟩
          · intro e he
            rw [f4] at he
            obtain ⟨e0, he0, rfl⟩ := List.mem_map.1 he
            exact ent_add (h.ents e0 he0) h2
          · show LinkOK (w.regs ++ [d]) (0, g1)
            rw [e3, ← hpt]
            exact link_modAdd h.g h2
          · show (w.regs ++ [d]).Nodup
            rw [List.nodup_append]
            refine ⟨h.rnodup, by simp, ?_⟩
            intro a ha b hb e
            rw [List.mem_singleton] at hb
            subst hb; subst e
            exact h2 ha
          · intro d' hd'
            rcases List.mem_append.1 hd' with x | x
            · exact h.rpt d' x
            · rw [List.mem_singleton.1 x, hpt]; exact hn
          · intro d' hd'
            rcases List.mem_append.1 hd' with x | x
            · exact h.rname d' x
            · rw [List.mem_singleton.1 x, hnm]; exact hs
        · intro hp
          have hp1 := e4 hp
          have : r2 = (({ s with roots := r1, gobs := g1 } : State).bcast n (bcastAdd d [name] true)).1.roots := by rw [f1]
          rw [this, State.bcast]
          split
          · refine pubL_mem.2 (fun t ht => ?_)
            obtain ⟨t0, h0, rfl⟩ := List.mem_map.1 ht
            exact pub_bcastAdd _ _ _ t0 (pubL_mem.1 hp1 t0 h0)
          · exact pubL_onNode _ _ (fun t ht => pub_bcastAdd _ _ _ t ht) _ hp1

/-- deregistration: refused, or no source knows the observer any more -/
theorem deregister_inv {s w} (h : InvT s w) {n cb ty name all} (hs : Single name) (hall : all = true ∨ pubL s.roots)
    (hn : n < s.next) :
    if (⟨cb, ty, n, name⟩ : Del) ∈ w.regs then
      ∃ roots' gobs', deregister s n cb ty name all =
        ({ s with roots := roots', gobs := gobs' }, .events ((entsL [] s.roots).flatMap (hitDelEv ⟨cb, ty, n, name⟩))) ∧
      InvT { s with roots := roots', gobs := gobs' } { w with regs := w.regs.erase ⟨cb, ty, n, name⟩ } ∧
      (pubL s.roots → pubL roots')
    else deregister s n cb ty name all = (s, .error) := by
  cases ho : s.obsAt n with
  | none => exact absurd hn ((obsAt_none h n).1 ho)
  | some obs =>
    have hl := obsAt_some h ho
    rw [deregister, ho]
    have hmem : (⟨cb, ty, n, name⟩ : Del) ∈ w.regs ↔ obs.contains (⟨cb, ty, n, name⟩ : Del) = true := by
      rw [List.contains_iff_mem, hl.2]
      simp
    by_cases h2 : (⟨cb, ty, n, name⟩ : Del) ∈ w.regs
    · rw [if_pos h2]
      simp only [if_pos (hmem.1 h2), parse_single hs]
      generalize hd : (⟨cb, ty, n, name⟩ : Del) = d
      rw [hd] at h2
      have hpt : d.pt = n := by rw [← hd]
      have hnm : d.name = name := by rw [← hd]
      have hall' : s.bcast n (bcastDel d [name] all) = s.bcast n (bcastDel d [name] true) := by
        rcases hall with rfl | hp
        · rfl
        · cases all with
          | true => rfl
          | false => exact bcast_congr h.gk hp (fun t ht => bcastDel_pub d [name] t ht)
      rw [hall']
      obtain ⟨r2, f1, f2, f3⟩ := bcast_ents (d := d) h.gk (fun ab t => ents_bcastDel d [name] ab t)
      rw [hpt] at f1 f3
      rw [f1, f3]
      rw [← hnm, hitDel_fun] at f2
      have h0 : ∀ e ∈ entsL [] ({ s with roots := r2 } : State).roots, 0 ∉ e.ids := by
        intro e he
        replace he : e ∈ entsL [] r2 := he
        rw [f2] at he
        obtain ⟨e0, he0, rfl⟩ := List.mem_map.1 he
        rw [Ent.ids, (hitDel_chain _ _).1]
        exact (h.ents e0 he0).pos
      obtain ⟨r1, g1, e1, e2, e3, e4⟩ := modObs_ents (s := { s with roots := r2 }) h.gk n (·.erase d) h0
      rw [e1]
      refine ⟨r1, g1, ?_, ?_, ?_⟩
      · rw [hnm.symm]
        rfl
      · have f4 : entsL [] r1 = (entsL [] s.roots).map (fun e => modEnt d.pt (·.erase d) id (hitDel d e)) := by
          rw [e2]
          show (entsL [] r2).map _ = _
          rw [f2, List.map_map, hpt]
          rfl
        have fid : idsL r1 = idsL s.roots := by
          rw [idsL, f4]
          exact map_id_eq (h := fun e => modEnt d.pt (·.erase d) id (hitDel d e)) (fun e => (hitDel_chain _ _).2) _
        refine ⟨h.gk, ?_, by rw [fid]; exact h.nodup, by rw [fid]; exact h.ids, ?_, h.rnodup.erase d, ?_, ?_, by rw [fid]; exact h.out, h.next⟩
        · intro e he
          rw [f4] at he
          obtain ⟨e0, he0, rfl⟩ := List.mem_map.1 he
          exact ent_del (h.ents e0 he0) h.rnodup d
        · show LinkOK (w.regs.erase d) (0, g1)
          rw [e3, ← hpt]
          exact link_modDel h.g h.rnodup
        · intro d' hd'
          exact h.rpt d' (List.mem_of_mem_erase hd')
        · intro d' hd'
          exact h.rname d' (List.mem_of_mem_erase hd')
      · intro hp
        refine e4 ?_
        show pubL r2
        have : r2 = (s.bcast n (bcastDel d [name] true)).1.roots := by rw [f1]
        rw [this, State.bcast]
        split
        · refine pubL_mem.2 (fun t ht => ?_)
          obtain ⟨t0, h0, rfl⟩ := List.mem_map.1 ht
          exact pub_bcastDel _ _ _ t0 (pubL_mem.1 hp t0 h0)
        · exact pubL_onNode _ _ (fun t ht => pub_bcastDel _ _ _ t ht) _ hp
    · rw [if_neg h2]
      show (if _ then _ else _) = _
      rw [if_neg (fun x => h2 (hmem.2 x))]

end Sparta.Notify
