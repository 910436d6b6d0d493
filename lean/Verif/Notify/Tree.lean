import Verif.Notify.Spec
/-! Trees seen as lists of nodes, each with the way up to its root. -/
namespace Sparta.Notify
open Sparta.Strings (Str)

/-- a node of a tree: number, observers, the way up from its parent, source -/
structure Ent where
  id : Nat
  obs : List Del
  above : List (Nat × List Del)
  src : Option Src

def Ent.chain (e : Ent) : List (Nat × List Del) := (e.id, e.obs) :: e.above
def Ent.ids (e : Ent) : List Nat := e.chain.map (·.1)

mutual
def ents (ab : List (Nat × List Del)) : Tree → List Ent
  | .node i _ o s kids => ⟨i, o, ab, s⟩ :: entsL ((i, o) :: ab) kids
def entsL (ab : List (Nat × List Del)) : List Tree → List Ent
  | [] => []
  | t :: ts => ents ab t ++ entsL ab ts
end

theorem entsL_append (ab) : ∀ a b : List Tree, entsL ab (a ++ b) = entsL ab a ++ entsL ab b
  | [], b => rfl
  | t :: a, b => by simp [entsL, entsL_append ab a b, List.append_assoc]

theorem mem_entsL {ab e} : ∀ {ts : List Tree}, e ∈ entsL ab ts ↔ ∃ t ∈ ts, e ∈ ents ab t
  | [] => by simp [entsL]
  | t :: ts => by simp [entsL, mem_entsL (ts := ts)]

/-- the same node when the root gets a parent -/
def Ent.lift (ab : List (Nat × List Del)) (e : Ent) : Ent := { e with above := e.above ++ ab }

mutual
theorem ents_lift (ab) : ∀ (b : List (Nat × List Del)) (t : Tree), ents (b ++ ab) t = (ents b t).map (Ent.lift ab)
  | b, .node i p o s kids => by
    have h := entsL_lift ab ((i, o) :: b) kids
    simp only [List.cons_append] at h
    simp [ents, h, Ent.lift]
theorem entsL_lift (ab) : ∀ (b : List (Nat × List Del)) (ts : List Tree), entsL (b ++ ab) ts = (entsL b ts).map (Ent.lift ab)
  | b, [] => rfl
  | b, t :: ts => by simp [entsL, ents_lift ab b t, entsL_lift ab b ts]
end

mutual
theorem ents_incPriv (k ab) : ∀ t : Tree, ents ab (incPriv k t) = ents ab t
  | .node i p o s kids => by simp [incPriv, ents, entsL_incPriv k _ kids]
theorem entsL_incPriv (k ab) : ∀ ts : List Tree, entsL ab (incPrivL k ts) = entsL ab ts
  | [] => rfl
  | t :: ts => by simp [incPrivL, entsL, ents_incPriv k ab t, entsL_incPriv k ab ts]
end

theorem incPriv_id (k) : ∀ t : Tree, (incPriv k t).id = t.id
  | .node i p o s kids => rfl

/-- the source determines its observers again -/
def Ent.redo (g : List Del) (e : Ent) : Ent := { e with src := e.src.map (fun x => determine x e.chain g) }

mutual
theorem ents_inform (g ab) : ∀ t : Tree, ents ab (inform g ab t) = (ents ab t).map (Ent.redo g)
  | .node i p o s kids => by simp [inform, ents, entsL_inform g ((i, o) :: ab) kids, Ent.redo, Ent.chain]
theorem entsL_inform (g ab) : ∀ ts : List Tree, entsL ab (informL g ab ts) = (entsL ab ts).map (Ent.redo g)
  | [] => rfl
  | t :: ts => by simp [informL, entsL, ents_inform g ab t, entsL_inform g ab ts]
end

theorem redo_id (g) (l : List Ent) : (l.map (Ent.redo g)).map (·.id) = l.map (·.id) := by
  simp [List.map_map, Function.comp_def, Ent.redo]

theorem lift_id (ab) (l : List Ent) : (l.map (Ent.lift ab)).map (·.id) = l.map (·.id) := by
  simp [List.map_map, Function.comp_def, Ent.lift]

/-- the nodes of the linked subtree, below node `e` -/
def linked (g : List Del) (c : Tree) (e : Ent) : List Ent := ((ents [] c).map (Ent.lift e.chain)).map (Ent.redo g)

theorem linked_id (g c e) : (linked g c e).map (·.id) = (ents [] c).map (·.id) := by
  rw [linked, redo_id, lift_id]

mutual
theorem mem_attach (g n c) : ∀ (ab) (t : Tree) (x : Ent), x ∈ ents ab (attach g n c ab t) →
    x ∈ ents ab t ∨ ∃ e ∈ ents ab t, e.id = n ∧ x ∈ linked g c e
  | ab, .node i p o s kids, x, h => by
    rw [attach] at h
    split at h
    · rename_i hi
      simp only [ents, List.mem_cons, entsL_append, List.mem_append, entsL, List.append_nil, List.not_mem_nil, or_false] at h ⊢
      rcases h with h | h | h
      · exact .inl (.inl h)
      · exact .inl (.inr h)
      · refine .inr ⟨⟨i, o, ab, s⟩, .inl rfl, hi, ?_⟩
        rw [ents_inform, ents_incPriv] at h
        have := ents_lift ((i, o) :: ab) [] c
        rw [List.nil_append] at this
        rw [this] at h
        exact h
    · simp only [ents, List.mem_cons] at h ⊢
      rcases h with h | h
      · exact .inl (.inl h)
      · rcases mem_attachL g n c _ kids x h with h | ⟨e, he, h⟩
        · exact .inl (.inr h)
        · exact .inr ⟨e, .inr he, h⟩
theorem mem_attachL (g n c) : ∀ (ab) (ts : List Tree) (x : Ent), x ∈ entsL ab (attachL g n c ab ts) →
    x ∈ entsL ab ts ∨ ∃ e ∈ entsL ab ts, e.id = n ∧ x ∈ linked g c e
  | ab, [], x, h => by simp [attachL, entsL] at h
  | ab, t :: ts, x, h => by
    simp only [attachL, entsL, List.mem_append] at h ⊢
    rcases h with h | h
    · rcases mem_attach g n c ab t x h with h | ⟨e, he, h⟩
      · exact .inl (.inl h)
      · exact .inr ⟨e, .inl he, h⟩
    · rcases mem_attachL g n c ab ts x h with h | ⟨e, he, h⟩
      · exact .inl (.inr h)
      · exact .inr ⟨e, .inr he, h⟩
end

def idsT (t : Tree) : List Nat := (ents [] t).map (·.id)
def idsL (ts : List Tree) : List Nat := (entsL [] ts).map (·.id)

theorem ids_ab (ab t) : (ents ab t).map (·.id) = idsT t := by
  have := ents_lift ab [] t
  rw [List.nil_append] at this
  rw [this, lift_id, idsT]

theorem idsL_ab (ab ts) : (entsL ab ts).map (·.id) = idsL ts := by
  have := entsL_lift ab [] ts
  rw [List.nil_append] at this
  rw [this, lift_id, idsL]

theorem idsT_node (i p o s kids) : idsT (.node i p o s kids) = i :: idsL kids := by
  rw [idsT, ents, List.map_cons, idsL_ab]

theorem idsL_cons (t ts) : idsL (t :: ts) = idsT t ++ idsL ts := by
  simp [idsL, idsT, entsL]

theorem idsL_append (a b) : idsL (a ++ b) = idsL a ++ idsL b := by simp [idsL, entsL_append]

theorem idsT_inform (g ab t) : idsT (inform g ab t) = idsT t := by
  rw [← ids_ab ab, ents_inform, redo_id, ids_ab]

theorem idsT_incPriv (k t) : idsT (incPriv k t) = idsT t := by rw [idsT, ents_incPriv, idsT]

mutual
theorem attach_none (g n c) : ∀ (ab) (t : Tree), n ∉ idsT t → attach g n c ab t = t
  | ab, .node i p o s kids, h => by
    rw [idsT_node] at h
    simp only [List.mem_cons, not_or] at h
    rw [attach, if_neg (fun e => h.1 e.symm), attachL_none g n c _ kids h.2]
theorem attachL_none (g n c) : ∀ (ab) (ts : List Tree), n ∉ idsL ts → attachL g n c ab ts = ts
  | ab, [], h => rfl
  | ab, t :: ts, h => by
    rw [idsL_cons] at h
    simp only [List.mem_append, not_or] at h
    rw [attachL, attach_none g n c ab t h.1, attachL_none g n c ab ts h.2]
end

mutual
theorem ids_attach (g n c) : ∀ (ab) (t : Tree), (idsT t).Nodup → n ∈ idsT t →
    (idsT (attach g n c ab t)).Perm (idsT t ++ idsT c)
  | ab, .node i p o s kids, hd, h => by
    rw [attach]
    split
    · rw [idsT_node, idsT_node, idsL_append, idsL_cons, idsT_inform, idsT_incPriv]
      simp [idsL, entsL]
    · rename_i hi
      rw [idsT_node] at hd h ⊢
      rw [idsT_node]
      have h' : n ∈ idsL kids := by
        rcases List.mem_cons.1 h with e | e
        · exact absurd e.symm hi
        · exact e
      exact (ids_attachL g n c _ kids (List.nodup_cons.1 hd).2 h').cons i
theorem ids_attachL (g n c) : ∀ (ab) (ts : List Tree), (idsL ts).Nodup → n ∈ idsL ts →
    (idsL (attachL g n c ab ts)).Perm (idsL ts ++ idsT c)
  | ab, [], hd, h => by simp [idsL, entsL] at h
  | ab, t :: ts, hd, h => by
    rw [idsL_cons] at hd h ⊢
    rw [attachL, idsL_cons]
    have hdd := List.nodup_append.1 hd
    by_cases ht : n ∈ idsT t
    · have hts : n ∉ idsL ts := fun hm => hdd.2.2 n ht n hm rfl
      rw [attachL_none g n c ab ts hts]
      have h1 := (ids_attach g n c ab t hdd.1 ht).append_right (idsL ts)
      refine h1.trans ?_
      rw [List.append_assoc, List.append_assoc]
      exact List.perm_append_comm.append_left (idsT t)
    · have hts : n ∈ idsL ts := by
        rcases List.mem_append.1 h with e | e
        · exact absurd e ht
        · exact e
      rw [attach_none g n c ab t ht, List.append_assoc]
      exact (ids_attachL g n c ab ts hdd.2.1 hts).append_left (idsT t)
end

/-! ### lookup -/

mutual
theorem find_none (n) : ∀ t : Tree, find n t = none ↔ n ∉ idsT t
  | .node i p o s kids => by
    rw [find, idsT_node]
    split
    · rename_i h
      simp [h]
    · rename_i h
      rw [findL_none n kids]
      simp [Ne.symm h]
theorem findL_none (n) : ∀ ts : List Tree, findL n ts = none ↔ n ∉ idsL ts
  | [] => by simp [findL, idsL, entsL]
  | t :: ts => by
    rw [findL, idsL_cons]
    have h1 := find_none n t
    have h2 := findL_none n ts
    cases hf : find n t with
    | some r =>
      rw [hf] at h1
      have : n ∈ idsT t := Classical.byContradiction fun hh => by cases h1.2 hh
      simp [this]
    | none =>
      rw [hf] at h1
      have := h1.1 rfl
      simp [this, h2]
end

mutual
/-- a node that is found is in the list, with its subtree -/
theorem find_some (n) : ∀ (ab) (t r : Tree), find n t = some r → r.id = n ∧ ∃ ab', (∀ x ∈ ents ab' r, x ∈ ents ab t) ∧
    ⟨r.id, r.obs, ab', r.src⟩ ∈ ents ab t
  | ab, .node i p o s kids, r, h => by
    rw [find] at h
    split at h
    · rename_i hi
      cases h
      exact ⟨hi, ab, fun x hx => hx, by simp [ents, Tree.id, Tree.obs, Tree.src]⟩
    · obtain ⟨h1, ab', h2, h3⟩ := findL_some n ((i, o) :: ab) kids r h
      exact ⟨h1, ab', fun x hx => by rw [ents]; exact List.mem_cons_of_mem _ (h2 x hx), by
        rw [ents]; exact List.mem_cons_of_mem _ h3⟩
theorem findL_some (n) : ∀ (ab) (ts : List Tree) (r : Tree), findL n ts = some r → r.id = n ∧ ∃ ab', (∀ x ∈ ents ab' r, x ∈ entsL ab ts) ∧
    ⟨r.id, r.obs, ab', r.src⟩ ∈ entsL ab ts
  | ab, [], r, h => by cases h
  | ab, t :: ts, r, h => by
    rw [findL] at h
    split at h
    · rename_i r' hr
      cases h
      obtain ⟨h1, ab', h2, h3⟩ := find_some n ab t r hr
      exact ⟨h1, ab', fun x hx => by rw [entsL]; exact List.mem_append_left _ (h2 x hx), by
        rw [entsL]; exact List.mem_append_left _ h3⟩
    · obtain ⟨h1, ab', h2, h3⟩ := findL_some n ab ts r h
      exact ⟨h1, ab', fun x hx => by rw [entsL]; exact List.mem_append_right _ (h2 x hx), by
        rw [entsL]; exact List.mem_append_right _ h3⟩
end

mutual
theorem ents_suffix : ∀ (ab) (t : Tree) (x : Ent), x ∈ ents ab t → ∃ l, x.chain = l ++ (t.id, t.obs) :: ab
  | ab, .node i p o s kids, x, h => by
    simp only [ents, List.mem_cons] at h
    rcases h with rfl | h
    · exact ⟨[], rfl⟩
    · obtain ⟨l, hl⟩ := entsL_suffix ((i, o) :: ab) kids x h
      exact ⟨l, hl⟩
theorem entsL_suffix : ∀ (ab) (ts : List Tree) (x : Ent), x ∈ entsL ab ts → ∃ l, x.chain = l ++ ab
  | ab, [], x, h => by simp [entsL] at h
  | ab, t :: ts, x, h => by
    simp only [entsL, List.mem_append] at h
    rcases h with h | h
    · obtain ⟨l, hl⟩ := ents_suffix ab t x h
      exact ⟨l ++ [(t.id, t.obs)], by rw [hl]; simp⟩
    · exact entsL_suffix ab ts x h
end

mutual
/-- a node below `n` is in the subtree of the node found -/
theorem find_below (n) : ∀ (ab) (t : Tree) (x : Ent), (idsT t).Nodup → n ∉ ab.map (·.1) → x ∈ ents ab t → n ∈ x.ids →
    ∃ r ab', find n t = some r ∧ x ∈ ents ab' r
  | ab, .node i p o s kids, x, hd, hn, hx, hi => by
    by_cases e : i = n
    · exact ⟨.node i p o s kids, ab, by rw [find, if_pos e], hx⟩
    · simp only [ents, List.mem_cons] at hx
      rcases hx with rfl | hx
      · simp only [Ent.ids, Ent.chain, List.map_cons, List.mem_cons] at hi
        rcases hi with h | h
        · exact absurd h.symm e
        · exact absurd h hn
      · rw [idsT_node] at hd
        obtain ⟨r, ab', h1, h2⟩ := findL_below n ((i, o) :: ab) kids x (List.nodup_cons.1 hd).2
          (by simp only [List.map_cons, List.mem_cons, not_or]; exact ⟨fun h => e h.symm, hn⟩) hx hi
        exact ⟨r, ab', by rw [find, if_neg e, h1], h2⟩
theorem findL_below (n) : ∀ (ab) (ts : List Tree) (x : Ent), (idsL ts).Nodup → n ∉ ab.map (·.1) → x ∈ entsL ab ts → n ∈ x.ids →
    ∃ r ab', findL n ts = some r ∧ x ∈ ents ab' r
  | ab, [], x, hd, hn, hx, hi => by simp [entsL] at hx
  | ab, t :: ts, x, hd, hn, hx, hi => by
    rw [idsL_cons] at hd
    have hdd := List.nodup_append.1 hd
    simp only [entsL, List.mem_append] at hx
    rcases hx with hx | hx
    · obtain ⟨r, ab', h1, h2⟩ := find_below n ab t x hdd.1 hn hx hi
      exact ⟨r, ab', by rw [findL, h1], h2⟩
    · obtain ⟨r, ab', h1, h2⟩ := findL_below n ab ts x hdd.2.1 hn hx hi
      have hin : n ∈ idsL ts := Classical.byContradiction fun hh => by
        rw [(findL_none n ts).2 hh] at h1; cases h1
      have : find n t = none := (find_none n t).2 (fun hh => hdd.2.2 n hh n hin rfl)
      exact ⟨r, ab', by rw [findL, this]; exact h1, h2⟩
end

/-! ### changes of one node -/

def modLink (n : Nat) (f : List Del → List Del) (l : Nat × List Del) : Nat × List Del :=
  if l.1 = n then (l.1, f l.2) else l

def modEnt (n : Nat) (f : List Del → List Del) (g : Src → Src) (e : Ent) : Ent :=
  ⟨e.id, if e.id = n then f e.obs else e.obs, e.above.map (modLink n f), if e.id = n then e.src.map g else e.src⟩

mutual
theorem ents_modify (n f g) : ∀ (ab) (t : Tree), ents (ab.map (modLink n f)) (modify n f g t) = (ents ab t).map (modEnt n f g)
  | ab, .node i p o s kids => by
    have h := entsL_modify n f g ((i, o) :: ab) kids
    rw [modify]
    by_cases e : i = n
    · rw [List.map_cons, modLink, if_pos e] at h
      rw [if_pos e, ents, h, ents, List.map_cons]
      simp [modEnt, e]
    · rw [List.map_cons, modLink, if_neg e] at h
      rw [if_neg e, ents, h, ents, List.map_cons]
      simp [modEnt, e]
theorem entsL_modify (n f g) : ∀ (ab) (ts : List Tree), entsL (ab.map (modLink n f)) (modifyL n f g ts) = (entsL ab ts).map (modEnt n f g)
  | ab, [] => rfl
  | ab, t :: ts => by simp [modifyL, entsL, ents_modify n f g ab t, entsL_modify n f g ab ts]
end

theorem modEnt_chain (n f g e) : (modEnt n f g e).chain = e.chain.map (modLink n f) := by
  simp only [modEnt, Ent.chain, List.map_cons, modLink]
  split <;> simp_all

theorem modEnt_ids (n f g e) : (modEnt n f g e).ids = e.ids := by
  rw [Ent.ids, modEnt_chain, Ent.ids, List.map_map]
  apply List.map_congr_left
  intro l _
  simp only [Function.comp, modLink]
  split <;> rfl

mutual
theorem ents_onNode (n F) (h : Ent → Ent) (hF : ∀ ab t, t.id = n → ents ab (F t).1 = (ents ab t).map h)
    (hh : ∀ e : Ent, n ∉ e.ids → h e = e) : ∀ (ab) (t : Tree), n ∉ ab.map (·.1) → ents ab (onNode n F t).1 = (ents ab t).map h
  | ab, .node i p o s kids, hn => by
    rw [onNode]
    by_cases e : i = n
    · rw [if_pos e]
      exact hF ab _ e
    · rw [if_neg e]
      have hn' : n ∉ ((i, o) :: ab).map (·.1) := by
        simp only [List.map_cons, List.mem_cons, not_or]
        exact ⟨fun x => e x.symm, hn⟩
      simp only [ents, entsL_onNode n F h hF hh _ kids hn', List.map_cons]
      rw [hh ⟨i, o, ab, s⟩ (by simpa [Ent.ids, Ent.chain] using hn')]
theorem entsL_onNode (n F) (h : Ent → Ent) (hF : ∀ ab t, t.id = n → ents ab (F t).1 = (ents ab t).map h)
    (hh : ∀ e : Ent, n ∉ e.ids → h e = e) : ∀ (ab) (ts : List Tree), n ∉ ab.map (·.1) → entsL ab (onNodeL n F ts).1 = (entsL ab ts).map h
  | ab, [], hn => rfl
  | ab, t :: ts, hn => by
    simp [onNodeL, entsL, ents_onNode n F h hF hh ab t hn, entsL_onNode n F h hF hh ab ts hn]
end

mutual
theorem evs_onNode (n F) (ev : Ent → List Ev) (hF : ∀ ab t, t.id = n → (F t).2 = (ents ab t).flatMap ev)
    (hh : ∀ e : Ent, n ∉ e.ids → ev e = []) : ∀ (ab) (t : Tree), n ∉ ab.map (·.1) → (onNode n F t).2 = (ents ab t).flatMap ev
  | ab, .node i p o s kids, hn => by
    rw [onNode]
    by_cases e : i = n
    · rw [if_pos e]
      exact hF ab _ e
    · rw [if_neg e]
      have hn' : n ∉ ((i, o) :: ab).map (·.1) := by
        simp only [List.map_cons, List.mem_cons, not_or]
        exact ⟨fun x => e x.symm, hn⟩
      simp only [ents, evsL_onNode n F ev hF hh _ kids hn', List.flatMap_cons]
      rw [hh ⟨i, o, ab, s⟩ (by simpa [Ent.ids, Ent.chain] using hn'), List.nil_append]
theorem evsL_onNode (n F) (ev : Ent → List Ev) (hF : ∀ ab t, t.id = n → (F t).2 = (ents ab t).flatMap ev)
    (hh : ∀ e : Ent, n ∉ e.ids → ev e = []) : ∀ (ab) (ts : List Tree), n ∉ ab.map (·.1) → (onNodeL n F ts).2 = (entsL ab ts).flatMap ev
  | ab, [], hn => rfl
  | ab, t :: ts, hn => by
    simp [onNodeL, entsL, evs_onNode n F ev hF hh ab t hn, evsL_onNode n F ev hF hh ab ts hn]
end

/-- the source learns of an observer -/
def addEnt (d : Del) (names : List Str) (e : Ent) : Ent := { e with src := (addHere d names e.id e.src).1 }
def addEv (d : Del) (names : List Str) (e : Ent) : List Ev := (addHere d names e.id e.src).2
def delEnt (d : Del) (names : List Str) (e : Ent) : Ent := { e with src := (delHere d names e.id e.src).1 }
def delEv (d : Del) (names : List Str) (e : Ent) : List Ev := (delHere d names e.id e.src).2

mutual
theorem ents_bcastAdd (d names) : ∀ (ab) (t : Tree), ents ab (bcastAdd d names true t).1 = (ents ab t).map (addEnt d names) ∧
    (bcastAdd d names true t).2 = (ents ab t).flatMap (addEv d names)
  | ab, .node i p o s kids => by
    obtain ⟨h1, h2⟩ := entsL_bcastAdd d names ((i, o) :: ab) p kids
    simp [bcastAdd, ents, h1, h2, addEnt, addEv]
theorem entsL_bcastAdd (d names) : ∀ (ab) (p : Nat) (ts : List Tree), entsL ab (bcastAddL d names true p ts).1 = (entsL ab ts).map (addEnt d names) ∧
    (bcastAddL d names true p ts).2 = (entsL ab ts).flatMap (addEv d names)
  | ab, p, [] => ⟨rfl, rfl⟩
  | ab, p, t :: ts => by
    obtain ⟨h1, h2⟩ := ents_bcastAdd d names ab t
    obtain ⟨h3, h4⟩ := entsL_bcastAdd d names ab p ts
    simp [bcastAddL, entsL, h1, h2, h3, h4]
end

mutual
theorem ents_bcastDel (d names) : ∀ (ab) (t : Tree), ents ab (bcastDel d names true t).1 = (ents ab t).map (delEnt d names) ∧
    (bcastDel d names true t).2 = (ents ab t).flatMap (delEv d names)
  | ab, .node i p o s kids => by
    obtain ⟨h1, h2⟩ := entsL_bcastDel d names ((i, o) :: ab) p kids
    simp [bcastDel, ents, h1, h2, delEnt, delEv]
theorem entsL_bcastDel (d names) : ∀ (ab) (p : Nat) (ts : List Tree), entsL ab (bcastDelL d names true p ts).1 = (entsL ab ts).map (delEnt d names) ∧
    (bcastDelL d names true p ts).2 = (entsL ab ts).flatMap (delEv d names)
  | ab, p, [] => ⟨rfl, rfl⟩
  | ab, p, t :: ts => by
    obtain ⟨h1, h2⟩ := ents_bcastDel d names ab t
    obtain ⟨h3, h4⟩ := entsL_bcastDel d names ab p ts
    simp [bcastDelL, entsL, h1, h2, h3, h4]
end

/-! ### trees without private nodes -/

mutual
def pub : Tree → Prop
  | .node _ p _ _ kids => p = 0 ∧ pubL kids
def pubL : List Tree → Prop
  | [] => True
  | t :: ts => pub t ∧ pubL ts
end

theorem pub_priv : ∀ {t : Tree}, pub t → t.priv = 0
  | .node _ _ _ _ _, h => h.1

theorem pubL_append : ∀ (a b : List Tree), pubL (a ++ b) ↔ pubL a ∧ pubL b
  | [], b => by simp [pubL]
  | t :: a, b => by simp [pubL, pubL_append a b, and_assoc]

theorem pubL_mem : ∀ {ts : List Tree}, pubL ts ↔ ∀ t ∈ ts, pub t
  | [] => by simp [pubL]
  | t :: ts => by simp [pubL, pubL_mem (ts := ts)]

mutual
theorem bcastAdd_pub (d names) : ∀ t : Tree, pub t → bcastAdd d names false t = bcastAdd d names true t
  | .node i p o s kids, h => by
    rw [bcastAdd, bcastAdd, bcastAddL_pub d names p kids h.1 h.2]
theorem bcastAddL_pub (d names) : ∀ (p : Nat) (ts : List Tree), p = 0 → pubL ts → bcastAddL d names false p ts = bcastAddL d names true p ts
  | p, [], _, h => rfl
  | p, t :: ts, hp, h => by
    rw [bcastAddL, bcastAddL, bcastAddL_pub d names p ts hp h.2, bcastAdd_pub d names t h.1]
    simp [pub_priv h.1, hp]
end

mutual
theorem bcastDel_pub (d names) : ∀ t : Tree, pub t → bcastDel d names false t = bcastDel d names true t
  | .node i p o s kids, h => by
    rw [bcastDel, bcastDel, bcastDelL_pub d names p kids h.1 h.2]
theorem bcastDelL_pub (d names) : ∀ (p : Nat) (ts : List Tree), p = 0 → pubL ts → bcastDelL d names false p ts = bcastDelL d names true p ts
  | p, [], _, h => rfl
  | p, t :: ts, hp, h => by
    rw [bcastDelL, bcastDelL, bcastDelL_pub d names p ts hp h.2, bcastDel_pub d names t h.1]
    simp [pub_priv h.1, hp]
end

mutual
theorem pub_bcastAdd (d names all) : ∀ t : Tree, pub t → pub (bcastAdd d names all t).1
  | .node i p o s kids, h => ⟨h.1, pubL_bcastAdd d names all p kids h.2⟩
theorem pubL_bcastAdd (d names all) : ∀ (p : Nat) (ts : List Tree), pubL ts → pubL (bcastAddL d names all p ts).1
  | p, [], h => h
  | p, t :: ts, h => by
    rw [bcastAddL]
    split
    · exact ⟨pub_bcastAdd d names all t h.1, pubL_bcastAdd d names all p ts h.2⟩
    · exact ⟨h.1, pubL_bcastAdd d names all p ts h.2⟩
end

mutual
theorem pub_bcastDel (d names all) : ∀ t : Tree, pub t → pub (bcastDel d names all t).1
  | .node i p o s kids, h => ⟨h.1, pubL_bcastDel d names all p kids h.2⟩
theorem pubL_bcastDel (d names all) : ∀ (p : Nat) (ts : List Tree), pubL ts → pubL (bcastDelL d names all p ts).1
  | p, [], h => h
  | p, t :: ts, h => by
    rw [bcastDelL]
    split
    · exact ⟨pub_bcastDel d names all t h.1, pubL_bcastDel d names all p ts h.2⟩
    · exact ⟨h.1, pubL_bcastDel d names all p ts h.2⟩
end

mutual
theorem pub_onNode (n F) (hF : ∀ t, pub t → pub (F t).1) : ∀ t : Tree, pub t → pub (onNode n F t).1
  | .node i p o s kids, h => by
    rw [onNode]
    split
    · exact hF _ h
    · exact ⟨h.1, pubL_onNode n F hF kids h.2⟩
theorem pubL_onNode (n F) (hF : ∀ t, pub t → pub (F t).1) : ∀ ts : List Tree, pubL ts → pubL (onNodeL n F ts).1
  | [], h => h
  | t :: ts, h => ⟨pub_onNode n F hF t h.1, pubL_onNode n F hF ts h.2⟩
end

mutual
theorem pub_modify (n f g) : ∀ t : Tree, pub t → pub (modify n f g t)
  | .node i p o s kids, h => by
    rw [modify]
    split
    · exact ⟨h.1, pubL_modify n f g kids h.2⟩
    · exact ⟨h.1, pubL_modify n f g kids h.2⟩
theorem pubL_modify (n f g) : ∀ ts : List Tree, pubL ts → pubL (modifyL n f g ts)
  | [], h => h
  | t :: ts, h => ⟨pub_modify n f g t h.1, pubL_modify n f g ts h.2⟩
end

mutual
theorem pub_inform (g) : ∀ (ab) (t : Tree), pub t → pub (inform g ab t)
  | ab, .node i p o s kids, h => ⟨h.1, pubL_inform g _ kids h.2⟩
theorem pubL_inform (g) : ∀ (ab) (ts : List Tree), pubL ts → pubL (informL g ab ts)
  | ab, [], h => h
  | ab, t :: ts, h => ⟨pub_inform g ab t h.1, pubL_inform g ab ts h.2⟩
end

mutual
theorem incPriv_zero : ∀ t : Tree, incPriv 0 t = t
  | .node i p o s kids => by rw [incPriv, incPrivL_zero kids]; rfl
theorem incPrivL_zero : ∀ ts : List Tree, incPrivL 0 ts = ts
  | [] => rfl
  | t :: ts => by rw [incPrivL, incPriv_zero t, incPrivL_zero ts]
end

mutual
theorem pub_attach (g n c) (hc : pub c) : ∀ (ab) (t : Tree), pub t → pub (attach g n c ab t)
  | ab, .node i p o s kids, h => by
    rw [attach]
    have hp : p = 0 := h.1
    split
    · refine ⟨h.1, (pubL_append _ _).2 ⟨h.2, ?_, trivial⟩⟩
      rw [hp, incPriv_zero]
      exact pub_inform g _ c hc
    · exact ⟨h.1, pubL_attach g n c hc _ kids h.2⟩
theorem pubL_attach (g n c) (hc : pub c) : ∀ (ab) (ts : List Tree), pubL ts → pubL (attachL g n c ab ts)
  | ab, [], h => h
  | ab, t :: ts, h => ⟨pub_attach g n c hc ab t h.1, pubL_attach g n c hc ab ts h.2⟩
end

mutual
theorem canSub_pub (ty name) : ∀ (ab) (t : Tree), pub t → (canSub ty name t = true ↔ ∃ e ∈ ents ab t, canGen e.src ty name = true)
  | ab, .node i p o s kids, h => by
    rw [canSub, Bool.or_eq_true, canSubL_pub ty name ((i, o) :: ab) p kids h.1 h.2]
    simp [ents]
theorem canSubL_pub (ty name) : ∀ (ab) (p : Nat) (ts : List Tree), p = 0 → pubL ts → (canSubL ty name p ts = true ↔ ∃ e ∈ entsL ab ts, canGen e.src ty name = true)
  | ab, p, [], hp, h => by simp [canSubL, entsL]
  | ab, p, t :: ts, hp, h => by
    rw [canSubL, Bool.or_eq_true, canSubL_pub ty name ab p ts hp h.2, Bool.and_eq_true, canSub_pub ty name ab t h.1]
    simp only [pub_priv h.1, hp, beq_self_eq_true, true_and, entsL, List.mem_append]
    constructor
    · rintro (⟨e, h1, h2⟩ | ⟨e, h1, h2⟩)
      · exact ⟨e, .inl h1, h2⟩
      · exact ⟨e, .inr h1, h2⟩
    · rintro ⟨e, h1 | h1, h2⟩
      · exact .inl ⟨e, h1, h2⟩
      · exact .inr ⟨e, h1, h2⟩
end

end Sparta.Notify
