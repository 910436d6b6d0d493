import Verif.Notify.InvT
/-! The invariant through whole histories. -/
namespace Sparta.Notify
open Sparta.Strings (Str)
open Sparta.PTree (Glob OkName patMatches)

theorem InvT.congr {s s' : State} {w w' : World} (h : InvT s w) (h1 : s'.gkids = s.gkids) (h2 : s'.roots = s.roots) (h3 : s'.next = s.next)
    (h4 : s'.gobs = s.gobs) (h5 : w'.par = w.par) (h6 : w'.srcs = w.srcs) (h7 : w'.regs = w.regs) (h8 : w'.posts = w.posts) : InvT s' w' := by
  refine ⟨by rw [h1]; exact h.gk, ?_, by rw [h2]; exact h.nodup, by rw [h2, h3]; exact h.ids, by rw [h7, h4]; exact h.g,
    by rw [h7]; exact h.rnodup, by rw [h7, h3]; exact h.rpt, by rw [h7]; exact h.rname, ?_, by rw [h3]; exact h.next⟩
  · intro e he
    rw [h2] at he
    have := h.ents e he
    refine ⟨⟨by rw [h5]; exact this.chain, this.pos, by rw [h7]; exact this.links, by rw [h6]; exact this.srcs, by rw [h8]; exact this.posts⟩,
      by rw [h7]; exact this.src⟩
  · intro i hi
    rw [h2] at hi
    rw [h6, h5, h8]
    exact h.out i hi

/-! ### linking a subtree -/

theorem root_end {t : Tree} {x : Ent} (h : x ∈ ents [] t) : ∃ u, x.ids = u ++ [t.id] := by
  obtain ⟨l, hl⟩ := ents_suffix [] t x h
  exact ⟨l.map (·.1), by rw [Ent.ids, hl]; simp⟩

theorem not_in_others {w : World} {R : List Tree} (hR : ∀ e ∈ entsL [] R, Base w e) {c : Nat} (hd : ∀ t ∈ R, t.id ≠ c)
    (hp : w.par c = none) {x : Ent} (hx : x ∈ entsL [] R) : c ∉ x.ids := by
  intro hc
  obtain ⟨t, ht, hxt⟩ := mem_entsL.1 hx
  obtain ⟨u, hu⟩ := chain_root (hR x hx).chain hc hp
  obtain ⟨v, hv⟩ := root_end hxt
  rw [hu] at hv
  have := List.append_inj_right' hv rfl
  simp only [List.cons.injEq, and_true] at this
  exact hd t ht this.symm

theorem link_ents {w : World} {R : List Tree} {c : Tree} {p : Nat} {g : List Del} (hR : ∀ e ∈ entsL [] R, EntOK w e)
    (hc : ∀ e ∈ ents [] c, Base w e) (hg : LinkOK w.regs (0, g)) (hd : ∀ t ∈ R, t.id ≠ c.id) (hp : w.par c.id = none) :
    ∀ x ∈ entsL [] (attachL g p c [] R), EntOK { w with par := upd w.par c.id (some p) } x := by
  have hnot : ∀ x ∈ entsL [] R, c.id ∉ x.ids := fun x hx => not_in_others (fun e he => (hR e he).toBase) hd hp hx
  intro x hx
  rcases mem_attachL g p c [] R x hx with hx | ⟨e, he, hei, hx⟩
  · have := hR x hx
    exact ⟨⟨chain_upd this.chain (hnot x hx), this.pos, this.links, this.srcs, this.posts⟩, this.src⟩
  · rw [linked, List.map_map] at hx
    obtain ⟨e0, he0, rfl⟩ := List.mem_map.1 hx
    have hb := hc e0 he0
    have he' := hR e he
    obtain ⟨u, hu⟩ := root_end he0
    have hch : (Ent.redo g (Ent.lift e.chain e0)).chain = e0.chain ++ e.chain := by
      simp [Ent.redo, Ent.lift, Ent.chain]
    have hids : (Ent.redo g (Ent.lift e.chain e0)).ids = e0.ids ++ e.ids := by
      rw [Ent.ids, hch, List.map_append]; rfl
    have hcn : c.id ∉ u := by
      have := chain_nodup hb.chain
      rw [hu, List.nodup_append] at this
      exact fun h => this.2.2 _ h _ (by simp) rfl
    have hok : ChainOK (upd w.par c.id (some p)) (e0.ids ++ e.ids) := by
      rw [hu, List.append_assoc]
      refine chain_link he'.chain ?_ (hnot e he) (by rw [← hu]; exact hb.chain) hcn
      simp [Ent.ids, Ent.chain, hei]
    have hpos : 0 ∉ e0.ids ++ e.ids := by
      rw [List.mem_append]
      rintro (h | h)
      · exact hb.pos h
      · exact he'.pos h
    have hlinks : ∀ l ∈ e0.chain ++ e.chain, LinkOK w.regs l := by
      intro l hl
      rcases List.mem_append.1 hl with h | h
      · exact hb.links l h
      · exact he'.links l h
    show EntOK _ (Ent.redo g (Ent.lift e.chain e0))
    refine ⟨⟨by rw [hids]; exact hok, by rw [hids]; exact hpos, by rw [hch]; exact hlinks, ?_, ?_⟩, ?_⟩
    · show w.srcs e0.id = (e0.src.map _).map _
      rw [hb.srcs, Option.map_map]
      rfl
    · intro y hy
      obtain ⟨x, hx1, rfl⟩ := Option.map_eq_some_iff.1 (show e0.src.map _ = some y from hy)
      exact hb.posts x hx1
    · intro y hy
      obtain ⟨x, hx1, rfl⟩ := Option.map_eq_some_iff.1 (show e0.src.map _ = some y from hy)
      rw [Ent.ids]
      have h1 : ((Ent.redo g (Ent.lift e.chain e0)).chain.map (·.1)).Nodup := by
        have := chain_nodup hok
        rw [← hids] at this
        exact this
      have h2 : 0 ∉ (Ent.redo g (Ent.lift e.chain e0)).chain.map (·.1) := by
        have := hpos
        rw [← hids] at this
        exact this
      exact determine_ok hg h1 h2 (by rw [hch]; exact hlinks) x

theorem root_in_ids (t : Tree) : t.id ∈ idsT t := by
  cases t
  rw [idsT_node]
  simp [Tree.id]

theorem ids_mem_root {R : List Tree} {t : Tree} (h : t ∈ R) : t.id ∈ idsL R := by
  induction R with
  | nil => cases h
  | cons u R ih =>
    rw [idsL_cons, List.mem_append]
    rcases List.mem_cons.1 h with rfl | h
    · exact .inl (root_in_ids t)
    · exact .inr (ih h)

theorem dropRoot_none {c : Nat} : ∀ {R : List Tree}, c ∉ idsL R → dropRoot c R = R
  | [], _ => rfl
  | u :: R, h => by
    rw [idsL_cons, List.mem_append, not_or] at h
    have : u.id ≠ c := fun e => h.1 (e ▸ root_in_ids u)
    rw [dropRoot, List.filter_cons_of_pos (by simpa using this)]
    congr 1
    exact dropRoot_none h.2

theorem dropRoot_perm {t : Tree} : ∀ {R : List Tree}, (idsL R).Nodup → t ∈ R → (idsL R).Perm (idsT t ++ idsL (dropRoot t.id R))
  | [], _, h => by cases h
  | u :: R, hd, h => by
    rw [idsL_cons] at hd
    have hdd := List.nodup_append.1 hd
    rcases List.mem_cons.1 h with rfl | h
    · have : t.id ∉ idsL R := fun hm => hdd.2.2 _ (root_in_ids t) _ hm rfl
      rw [idsL_cons, dropRoot, List.filter_cons_of_neg (by simp)]
      rw [show List.filter (fun t_1 => t_1.id != t.id) R = R from dropRoot_none this]
    · have hne : u.id ≠ t.id := fun e => hdd.2.2 _ (root_in_ids u) _ (e ▸ ids_mem_root h) rfl
      rw [idsL_cons, dropRoot, List.filter_cons_of_pos (by simpa using hne), idsL_cons]
      refine ((dropRoot_perm hdd.2.1 h).append_left (idsT u)).trans ?_
      rw [← List.append_assoc, ← List.append_assoc]
      exact List.perm_append_comm.append_right _

theorem mem_dropRoot {c : Nat} {R : List Tree} {t} : t ∈ dropRoot c R ↔ t ∈ R ∧ t.id ≠ c := by
  rw [dropRoot, List.mem_filter]
  simp

theorem addChild_inv {s w} (h : InvT s w) {p c : Nat} (hp : p ≠ 0) :
    ((addChild s p c).2 = .ok → InvT (addChild s p c).1 { w with par := upd w.par c (some p) } ∧
      (pubL s.roots → pubL (addChild s p c).1.roots)) ∧
    ((addChild s p c).2 ≠ .ok → (addChild s p c).1 = s) ∧
    (∃ r g, (addChild s p c).1 = { s with roots := r, gobs := g }) ∧
    ((addChild s p c).2 = .ok ∨ (addChild s p c).2 = .error ∨ (addChild s p c).2 = .undefined) := by
  rw [addChild]
  split
  · exact ⟨nofun, fun _ => rfl, ⟨s.roots, s.gobs, rfl⟩, .inr (.inr rfl)⟩
  · rename_i hg
    split
    · exact ⟨nofun, fun _ => rfl, ⟨s.roots, s.gobs, rfl⟩, .inr (.inr rfl)⟩
    · rename_i t ht
      split
      · exact ⟨nofun, fun _ => rfl, ⟨s.roots, s.gobs, rfl⟩, .inr (.inl rfl)⟩
      · rename_i hf
        have htm := List.mem_of_find?_eq_some ht
        have htc : t.id = c := by simpa using List.find?_some ht
        have hpn : p ∉ idsT t := by
          rw [← find_none]
          simpa using hf
        have hpi : p ∈ idsL s.roots := by
          rw [h.ids]
          have : ¬ (s.get p = none) := fun e => hg ⟨hp, by rw [e]; rfl⟩
          rw [get_none h] at this
          omega
        have hperm := dropRoot_perm h.nodup htm
        rw [htc] at hperm
        have hpR : p ∈ idsL (dropRoot c s.roots) := by
          rcases List.mem_append.1 (hperm.mem_iff.1 hpi) with e | e
          · exact absurd e hpn
          · exact e
        have hnd := hperm.nodup_iff.1 h.nodup
        have hndR := (List.nodup_append.1 hnd).2.1
        have hids := ids_attachL s.gobs p t [] (dropRoot c s.roots) hndR hpR
        have hpar : w.par c = none := by
          have he : (⟨t.id, t.obs, [], t.src⟩ : Ent) ∈ entsL [] s.roots := by
            refine mem_entsL.2 ⟨t, htm, ?_⟩
            cases t
            simp [ents, Tree.id, Tree.obs, Tree.src]
          have := (h.ents _ he).chain.1
          rw [← htc]
          exact this
        have hsub : ∀ e ∈ entsL [] (dropRoot c s.roots), e ∈ entsL [] s.roots := by
          intro e he
          obtain ⟨u, hu, heu⟩ := mem_entsL.1 he
          exact mem_entsL.2 ⟨u, (mem_dropRoot.1 hu).1, heu⟩
        have hfin : ∀ i, i ∈ idsL (attachL s.gobs p t [] (dropRoot c s.roots)) ↔ i ∈ idsL s.roots := by
          intro i
          rw [hids.mem_iff, hperm.mem_iff, List.mem_append, List.mem_append, or_comm]
        have hlink : ({ s with roots := dropRoot c s.roots } : State).link p t =
            { s with roots := attachL s.gobs p t [] (dropRoot c s.roots) } := by
          rw [State.link, if_neg hp]
          simp [h.gk, attachL]
        rw [hlink]
        refine ⟨fun _ => ⟨⟨h.gk, ?_, ?_, ?_, h.g, h.rnodup, h.rpt, h.rname, ?_, h.next⟩, ?_⟩, fun x => absurd rfl x,
          ⟨_, s.gobs, rfl⟩, .inl rfl⟩
        · rw [← htc]
          refine link_ents (fun e he => h.ents e (hsub e (htc ▸ he))) (fun e he => (h.ents e (mem_entsL.2 ⟨t, htm, he⟩)).toBase) h.g ?_
            (by rw [htc]; exact hpar)
          intro u hu
          exact (mem_dropRoot.1 hu).2
        · exact hids.nodup_iff.2 ((List.perm_append_comm.nodup_iff).1 hnd)
        · intro i
          show i ∈ idsL (attachL _ _ _ _ _) ↔ _
          rw [hfin]
          exact h.ids i
        · intro i hi
          have hi' : i ∉ idsL s.roots := fun x => hi ((hfin i).2 x)
          have := h.out i hi'
          refine ⟨this.1, ?_, this.2.2⟩
          show upd w.par c (some p) i = none
          rw [upd_other _ _ (fun e => hi' (by rw [e, ← htc]; exact ids_mem_root htm))]
          exact this.2.1
        · intro hpub
          have := pubL_mem.1 hpub
          exact pubL_attach _ _ _ (this t htm) _ _ (pubL_mem.2 (fun u hu => this u (mem_dropRoot.1 hu).1))

/-- the world with one source more -/
theorem newSource_inv {s w} (h : InvT s w) {p ty : Nat} {name : Str} (hp : p ≠ 0) :
    if p < s.next then
      (newSource s p ty name).2 = .made s.next ∧
      InvT (newSource s p ty name).1 { w with par := upd w.par s.next (some p), srcs := upd w.srcs s.next (some (ty, name)) } ∧
      (∃ r, (newSource s p ty name).1 = { s with next := s.next + 1, roots := r } ∧ (pubL s.roots → pubL r))
    else newSource s p ty name = (s, .undefined) := by
  have hgn := get_none h p
  split
  · rename_i hlt
    have hne : ¬ (p ≠ 0 ∧ (s.get p).isNone = true) := by
      rintro ⟨-, hh⟩
      rw [Option.isNone_iff_eq_none, hgn] at hh
      omega
    rw [newSource, if_neg hne]
    generalize hleaf : (Tree.node s.next 0 [] (some ⟨ty, name, [], [], false, 0⟩) []) = leaf
    have hlid : leaf.id = s.next := by rw [← hleaf]; rfl
    have hlids : idsT leaf = [s.next] := by rw [← hleaf, idsT_node]; rfl
    have hpi : p ∈ idsL s.roots := by rw [h.ids]; omega
    have hfresh : s.next ∉ idsL s.roots := by rw [h.ids]; omega
    have hids := ids_attachL s.gobs p leaf [] s.roots h.nodup hpi
    rw [hlids] at hids
    have hlink : ({ s with next := s.next + 1 } : State).link p leaf =
        { s with next := s.next + 1, roots := attachL s.gobs p leaf [] s.roots } := by
      rw [State.link, if_neg hp]
      simp [h.gk, attachL]
    rw [hlink]
    have hout := h.out s.next hfresh
    have hw : ∀ e ∈ entsL [] s.roots, EntOK { w with srcs := upd w.srcs s.next (some (ty, name)) } e := by
      intro e he
      have := h.ents e he
      have hi : e.id ∈ idsL s.roots := List.mem_map.2 ⟨e, he, rfl⟩
      refine ⟨⟨this.chain, this.pos, this.links, ?_, this.posts⟩, this.src⟩
      show upd w.srcs _ _ _ = _
      rw [upd_other _ _ (show e.id ≠ s.next from fun x => hfresh (x ▸ hi))]
      exact this.srcs
    have hlf : ∀ e ∈ ents [] leaf, Base { w with srcs := upd w.srcs s.next (some (ty, name)) } e := by
      intro e he
      rw [← hleaf] at he
      simp only [ents, entsL, List.mem_singleton] at he
      subst he
      refine ⟨⟨hout.2.1, trivial⟩, ?_, ?_, ?_, ?_⟩
      · have := h.next
        simp [Ent.ids, Ent.chain]
        omega
      · intro l hl
        simp only [Ent.chain, List.mem_singleton] at hl
        subst hl
        refine ⟨List.nodup_nil, fun d => ?_⟩
        simp only [List.not_mem_nil, false_iff, not_and]
        intro hd e
        have := h.rpt d hd
        omega
      · show upd w.srcs _ _ _ = _
        rw [upd_same]
        rfl
      · intro x hx
        cases hx
        exact hout.2.2.symm
    refine ⟨rfl, ⟨h.gk, ?_, ?_, ?_, h.g, h.rnodup, fun d hd => Nat.lt_succ_of_lt (h.rpt d hd), h.rname, ?_, Nat.succ_pos _⟩, _, rfl, ?_⟩
    · have := link_ents (p := p) hw hlf h.g (fun t ht e => hfresh (by rw [← hlid, ← e]; exact ids_mem_root ht))
        (by rw [hlid]; exact hout.2.1)
      rw [hlid] at this
      exact this
    · refine hids.nodup_iff.2 ?_
      rw [List.nodup_append]
      refine ⟨h.nodup, by simp, ?_⟩
      intro a ha b hb e
      rw [List.mem_singleton] at hb
      subst hb; subst e
      exact hfresh ha
    · intro i
      show i ∈ idsL (attachL _ _ _ _ _) ↔ 0 < i ∧ i < s.next + 1
      rw [hids.mem_iff, List.mem_append, List.mem_singleton, h.ids]
      have := h.next
      omega
    · intro i hi
      have hi' : i ∉ idsL s.roots ++ [s.next] := fun x => hi (hids.mem_iff.2 x)
      rw [List.mem_append, List.mem_singleton, not_or] at hi'
      have := h.out i hi'.1
      exact ⟨by show upd w.srcs _ _ _ = _; rw [upd_other _ _ hi'.2]; exact this.1,
        by show upd w.par _ _ _ = _; rw [upd_other _ _ hi'.2]; exact this.2.1, this.2.2⟩
    · intro hpub
      refine pubL_attach _ _ _ ?_ _ _ hpub
      rw [← hleaf]
      exact ⟨rfl, trivial⟩
  · rename_i hlt
    rw [newSource, if_pos]
    refine ⟨hp, ?_⟩
    rw [Option.isNone_iff_eq_none, hgn]
    omega

theorem node_inv {s w} (h : InvT s w) :
    InvT { s with next := s.next + 1, roots := s.roots ++ [.node s.next 0 [] none []] } w := by
  have hfresh : s.next ∉ idsL s.roots := by rw [h.ids]; omega
  have hout := h.out s.next hfresh
  have hids : idsL (s.roots ++ [.node s.next 0 [] none []]) = idsL s.roots ++ [s.next] := by
    rw [idsL_append]; rfl
  refine ⟨h.gk, ?_, ?_, ?_, h.g, h.rnodup, fun d hd => Nat.lt_succ_of_lt (h.rpt d hd), h.rname, ?_, Nat.succ_pos _⟩
  · intro e he
    replace he : e ∈ entsL [] (s.roots ++ [.node s.next 0 [] none []]) := he
    rw [entsL_append, List.mem_append] at he
    rcases he with he | he
    · exact h.ents e he
    · simp only [entsL, ents, List.append_nil, List.mem_singleton] at he
      subst he
      refine ⟨⟨⟨hout.2.1, trivial⟩, ?_, ?_, hout.1, nofun⟩, nofun⟩
      · have := h.next
        simp [Ent.ids, Ent.chain]
        omega
      · intro l hl
        simp only [Ent.chain, List.mem_singleton] at hl
        subst hl
        refine ⟨List.nodup_nil, fun d => ?_⟩
        simp only [List.not_mem_nil, false_iff, not_and]
        intro hd e
        have := h.rpt d hd
        omega
  · show (idsL _).Nodup
    rw [hids, List.nodup_append]
    refine ⟨h.nodup, by simp, ?_⟩
    intro a ha b hb e
    rw [List.mem_singleton] at hb
    subst hb; subst e
    exact hfresh ha
  · intro i
    show i ∈ idsL _ ↔ 0 < i ∧ i < s.next + 1
    rw [hids, List.mem_append, List.mem_singleton, h.ids]
    have := h.next
    omega
  · intro i hi
    replace hi : i ∉ idsL (s.roots ++ [.node s.next 0 [] none []]) := hi
    rw [hids, List.mem_append, not_or] at hi
    exact h.out i hi.1

theorem private_inv {s w} (h : InvT s w) (n : Nat) :
    ∃ r, (s.onNode n (fun t => (incPriv 1 t, []))).1 = { s with roots := r } ∧ InvT { s with roots := r } w := by
  have he : entsL [] (onNodeL n (fun t => (incPriv 1 t, [])) s.roots).1 = entsL [] s.roots := by
    rw [entsL_onNode n _ id (fun ab t _ => by rw [ents_incPriv, List.map_id]) (fun e _ => rfl) [] s.roots (by simp), List.map_id]
  refine ⟨(onNodeL n (fun t => (incPriv 1 t, [])) s.roots).1, ?_, ?_⟩
  · rw [State.onNode, h.gk]
    simp [onNodeL, ← h.gk]
  · refine ⟨h.gk, by rw [he]; exact h.ents, ?_, ?_, h.g, h.rnodup, h.rpt, h.rname, ?_, h.next⟩
    · rw [idsL, he]; exact h.nodup
    · rw [idsL, he]; exact h.ids
    · rw [idsL, he]; exact h.out

theorem modLink_id (n) : modLink n id = id := by
  funext l
  rw [modLink]
  split <;> rfl

theorem bump_inv {s w} (h : InvT s w) {i : Nat} {x : Src} (hi : (s.get i).bind Tree.src = some x) :
    ∃ r, s.modify i id (fun x => { x with posts := x.posts + 1 }) = { s with roots := r } ∧
      InvT { s with roots := r } { w with posts := upd w.posts i (w.posts i + 1) } ∧ (pubL s.roots → pubL r) := by
  refine ⟨modifyL i id (fun x => { x with posts := x.posts + 1 }) s.roots, ?_, ?_, pubL_modify _ _ _ _⟩
  · rw [State.modify, h.gk]
    simp [modifyL, ← h.gk]
  · have he := entsL_modify0 i id (fun x => { x with posts := x.posts + 1 }) s.roots
    have hids : idsL (modifyL i id (fun x => { x with posts := x.posts + 1 }) s.roots) = idsL s.roots := by
      rw [idsL, he]
      exact map_id_eq (h := modEnt i id (fun x => { x with posts := x.posts + 1 })) (fun e => rfl) _
    refine ⟨h.gk, ?_, by rw [hids]; exact h.nodup, by rw [hids]; exact h.ids, h.g, h.rnodup, h.rpt, h.rname, ?_, h.next⟩
    · intro e hm
      rw [he] at hm
      obtain ⟨e0, hm0, rfl⟩ := List.mem_map.1 hm
      have h0 := h.ents e0 hm0
      have hc : (modEnt i id (fun x => { x with posts := x.posts + 1 }) e0).chain = e0.chain := by
        rw [modEnt_chain, modLink_id, List.map_id]
      refine ⟨⟨by rw [modEnt_ids]; exact h0.chain, by rw [modEnt_ids]; exact h0.pos, by rw [hc]; exact h0.links, ?_, ?_⟩, ?_⟩
      · show w.srcs e0.id = (if e0.id = i then _ else _ : Option Src).map _
        rw [h0.srcs]
        split
        · rw [Option.map_map]; rfl
        · rfl
      · intro y hy
        replace hy : (if e0.id = i then e0.src.map (fun x => { x with posts := x.posts + 1 }) else e0.src) = some y := hy
        show y.posts = upd w.posts i _ e0.id
        split at hy
        · rename_i e
          obtain ⟨x0, hx0, rfl⟩ := Option.map_eq_some_iff.1 hy
          rw [e, upd_same, ← e]
          show x0.posts + 1 = _
          rw [h0.posts x0 hx0]
        · rename_i e
          rw [upd_other _ _ e]
          exact h0.posts y hy
      · intro y hy
        rw [modEnt_ids]
        replace hy : (if e0.id = i then e0.src.map (fun x => { x with posts := x.posts + 1 }) else e0.src) = some y := hy
        split at hy
        · obtain ⟨x0, hx0, rfl⟩ := Option.map_eq_some_iff.1 hy
          have := h0.src x0 hx0
          exact ⟨this.nodup, this.mem, this.nnodup, this.nmem, this.obs⟩
        · exact h0.src y hy
    · intro j hj
      rw [hids] at hj
      have := h.out j hj
      refine ⟨this.1, this.2.1, ?_⟩
      show upd w.posts i _ j = 0
      rw [upd_other]
      · exact this.2.2
      · intro e
        subst e
        refine hj ?_
        cases hg : s.get j with
        | none => rw [hg] at hi; cases hi
        | some t =>
          obtain ⟨e, h1, h2, -⟩ := get_some h hg
          exact List.mem_map.2 ⟨e, h1, h2⟩

end Sparta.Notify
