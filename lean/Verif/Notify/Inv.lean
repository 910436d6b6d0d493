import Verif.Notify.Tree
import Verif.PTree.Pattern
/-! Every source knows exactly the observers registered for it. -/
namespace Sparta.Notify
open Sparta.Strings (Str)
open Sparta.PTree (Glob OkName patMatches)

/-! ### names -/

theorem catMatch_fits {p : Str} (h : OkName p) (n : Str) : catMatch p n = true ↔ Fits p n := by
  unfold catMatch Fits
  rw [Bool.or_eq_true, Bool.or_eq_true, List.isEmpty_iff, beq_iff_eq, Sparta.PTree.patMatches_iff h, or_assoc]

theorem single_sep {s : Str} (h : Single s) {c : Char} (hc : c ∈ s) : isSep c = false := by
  have := h.2 c hc
  simp [isSep, this]

theorem dropWhile_none {α} {p : α → Bool} : ∀ {l : List α}, (∀ a ∈ l, p a = false) → l.dropWhile p = l
  | [], _ => rfl
  | a :: l, h => by rw [List.dropWhile_cons, if_neg (by simp [h a (by simp)])]

theorem takeWhile_all {α} {p : α → Bool} : ∀ {l : List α}, (∀ a ∈ l, p a = true) → l.takeWhile p = l
  | [], _ => rfl
  | a :: l, h => by
    rw [List.takeWhile_cons, if_pos (h a (by simp)), takeWhile_all (fun b hb => h b (List.mem_cons_of_mem _ hb))]

theorem dropWhile_all {α} {p : α → Bool} : ∀ {l : List α}, (∀ a ∈ l, p a = true) → l.dropWhile p = []
  | [], _ => rfl
  | a :: l, h => by
    rw [List.dropWhile_cons, if_pos (h a (by simp)), dropWhile_all (fun b hb => h b (List.mem_cons_of_mem _ hb))]

theorem parse_single {s : Str} (h : Single s) : parseNames s = some [s] := by
  rw [parseNames]
  have h0 : s.dropWhile isSep = s := dropWhile_none (fun a ha => single_sep h ha)
  split
  · rename_i h1
    rw [h0] at h1
    rw [h1]
  · rename_i c r h1
    rw [h0] at h1
    have h2 : ∀ a ∈ c :: r, (fun x => !isSep x) a = true := by
      intro a ha
      rw [← h1] at ha
      simp [single_sep h ha]
    simp only [takeWhile_all h2]
    split
    · rw [h1]
    · rename_i h3
      rw [dropWhile_all h2] at h3
      cases h3

/-! ### parents -/

def ChainOK (par : Nat → Option Nat) : List Nat → Prop
  | [] => True
  | a :: l => par a = l.head? ∧ ChainOK par l

theorem chain_unique {par} : ∀ {l l' : List Nat}, ChainOK par l → ChainOK par l' → l.head? = l'.head? → l = l'
  | [], [], _, _, _ => rfl
  | [], _ :: _, _, _, h => by simp at h
  | _ :: _, [], _, _, h => by simp at h
  | a :: l, b :: l', h1, h2, h => by
    simp only [List.head?_cons, Option.some.injEq] at h
    subst h
    rw [chain_unique h1.2 h2.2 (h1.1.symm.trans h2.1)]

theorem chain_suffix {par} : ∀ {l l' : List Nat}, ChainOK par (l ++ l') → ChainOK par l'
  | [], _, h => h
  | _ :: _, _, h => chain_suffix h.2

theorem chain_nodup {par} : ∀ {l : List Nat}, ChainOK par l → l.Nodup
  | [], _ => List.nodup_nil
  | a :: l, h => by
    refine List.nodup_cons.2 ⟨fun ha => ?_, chain_nodup h.2⟩
    obtain ⟨u, v, e⟩ := List.append_of_mem ha
    have h2 : ChainOK par (a :: v) := chain_suffix (l := u) (by rw [← e]; exact h.2)
    have := chain_unique h h2 rfl
    have := congrArg List.length this
    rw [e] at this
    simp at this
    omega

theorem chain_above {par i} : ∀ {l : List Nat}, ChainOK par l → l.head? = some i → ∀ a, Above par a i ↔ a ∈ l
  | [], _, h, _ => by simp at h
  | b :: l, h, he, a => by
    simp only [List.head?_cons, Option.some.injEq] at he
    subst he
    constructor
    · intro hab
      have key : ∀ x y, Above par x y → ∀ l, ChainOK par l → l.head? = some y → x ∈ l := by
        intro x y hxy
        induction hxy with
        | refl => intro l _ hl; cases l with
          | nil => simp at hl
          | cons z l => simp only [List.head?_cons, Option.some.injEq] at hl; simp [hl]
        | up hp _ ih => intro l hc hl; cases l with
          | nil => simp at hl
          | cons z l =>
            simp only [List.head?_cons, Option.some.injEq] at hl
            subst hl
            exact List.mem_cons_of_mem _ (ih l hc.2 (hc.1.symm.trans hp))
      exact key a b hab (b :: l) h rfl
    · intro hm
      rcases List.mem_cons.1 hm with rfl | hm
      · exact .refl
      · cases l with
        | nil => cases hm
        | cons c l => exact .up h.1 ((chain_above (i := c) h.2 rfl a).2 hm)

/-- a node without parent is at the end -/
theorem chain_root {par c} {l : List Nat} (h : ChainOK par l) (hc : c ∈ l) (hn : par c = none) : ∃ u, l = u ++ [c] := by
  obtain ⟨u, v, e⟩ := List.append_of_mem hc
  have h2 : ChainOK par (c :: v) := chain_suffix (l := u) (by rw [← e]; exact h)
  have : v.head? = none := h2.1.symm.trans hn
  cases v with
  | nil => exact ⟨u, e⟩
  | cons => simp at this

theorem chain_upd {par : Nat → Option Nat} {c x} : ∀ {l : List Nat}, ChainOK par l → c ∉ l → ChainOK (upd par c x) l
  | [], _, _ => trivial
  | a :: l, h, hc => by
    simp only [List.mem_cons, not_or] at hc
    exact ⟨by rw [upd_other _ _ (Ne.symm hc.1)]; exact h.1, chain_upd h.2 hc.2⟩

theorem chain_link {par : Nat → Option Nat} {c p} {lp : List Nat} (hp : ChainOK par lp) (he : lp.head? = some p) (hc : c ∉ lp) :
    ∀ {l : List Nat}, ChainOK par (l ++ [c]) → c ∉ l → ChainOK (upd par c (some p)) (l ++ c :: lp)
  | [], _, _ => ⟨by rw [upd_same, he], chain_upd hp hc⟩
  | a :: l, h, hl => by
    simp only [List.mem_cons, not_or] at hl
    refine ⟨?_, chain_link hp he hc h.2 hl.2⟩
    rw [upd_other _ _ (Ne.symm hl.1)]
    have := h.1
    rw [this]
    cases l <;> rfl

/-! ### sources -/

def LinkOK (regs : List Del) (l : Nat × List Del) : Prop := l.2.Nodup ∧ ∀ d, d ∈ l.2 ↔ d ∈ regs ∧ d.pt = l.1

/-- the observers a source knows are right -/
structure SrcOK (regs : List Del) (ids : List Nat) (x : Src) : Prop where
  nodup : x.dels.Nodup
  mem : ∀ d, d ∈ x.dels ↔ d ∈ regs ∧ d.ty = x.ty ∧ (d.pt = 0 ∨ d.pt ∈ ids) ∧ catMatch d.name x.name = true
  nnodup : x.nodes.Nodup
  nmem : ∀ n, n ∈ x.nodes ↔ ∃ d ∈ x.dels, d.pt = n
  obs : x.observed = !x.dels.isEmpty

structure Base (w : World) (e : Ent) : Prop where
  chain : ChainOK w.par e.ids
  pos : 0 ∉ e.ids
  links : ∀ l ∈ e.chain, LinkOK w.regs l
  srcs : w.srcs e.id = e.src.map (fun x => (x.ty, x.name))
  posts : ∀ x, e.src = some x → x.posts = w.posts e.id

structure EntOK (w : World) (e : Ent) : Prop extends Base w e where
  src : ∀ x, e.src = some x → SrcOK w.regs e.ids x

theorem observes_iff {n ty name d} : observes n ty name d = true ↔ d.ty = ty ∧ d.pt = n ∧ catMatch d.name name = true := by
  simp [observes, and_assoc]

theorem determine_ok {regs : List Del} {g : List Del} (hg : LinkOK regs (0, g)) {chain : List (Nat × List Del)}
    (hn : (chain.map (·.1)).Nodup) (h0 : 0 ∉ chain.map (·.1)) (hl : ∀ l ∈ chain, LinkOK regs l) (x : Src) :
    SrcOK regs (chain.map (·.1)) (determine x chain g) := by
  have hall : ∀ l ∈ chain ++ [(0, g)], LinkOK regs l := by
    intro l h
    rcases List.mem_append.1 h with h | h
    · exact hl l h
    · rw [List.mem_singleton.1 h]; exact hg
  have hnd : ((chain ++ [(0, g)]).map (fun l : Nat × List Del => l.1)).Nodup := by
    rw [List.map_append, List.nodup_append]
    refine ⟨hn, by simp, ?_⟩
    intro a ha b hb e
    simp only [List.map_cons, List.map_nil, List.mem_singleton] at hb
    subst hb
    exact h0 (e ▸ ha)
  have hm : ∀ d, d ∈ (determine x chain g).dels ↔ d ∈ regs ∧ d.ty = x.ty ∧ (d.pt = 0 ∨ d.pt ∈ chain.map (·.1)) ∧
      catMatch d.name x.name = true := by
    intro d
    simp only [determine, List.mem_flatMap, List.mem_filter, observes_iff]
    constructor
    · rintro ⟨l, hl1, h1, h2, h3, h4⟩
      refine ⟨((hall l hl1).2 d |>.1 h1).1, h2, ?_, h4⟩
      rcases List.mem_append.1 hl1 with h | h
      · exact .inr (h3 ▸ List.mem_map.2 ⟨l, h, rfl⟩)
      · rw [List.mem_singleton.1 h] at h3
        exact .inl h3
    · rintro ⟨h1, h2, h3, h4⟩
      rcases h3 with h3 | h3
      · exact ⟨(0, g), by simp, (hg.2 d).2 ⟨h1, h3⟩, h2, h3, h4⟩
      · obtain ⟨l, hl1, hl2⟩ := List.mem_map.1 h3
        exact ⟨l, List.mem_append_left _ hl1, ((hl l hl1).2 d).2 ⟨h1, hl2.symm⟩, h2, hl2.symm, h4⟩
  refine ⟨?_, hm, ?_, ?_, rfl⟩
  · have key : ∀ L : List (Nat × List Del), (∀ l ∈ L, LinkOK regs l) → (L.map (·.1)).Nodup →
        (L.flatMap (fun e => e.2.filter (observes e.1 x.ty x.name))).Nodup := by
      intro L
      induction L with
      | nil => intro _ _; simp
      | cons l L ih =>
        intro h1 h2
        rw [List.map_cons, List.nodup_cons] at h2
        rw [List.flatMap_cons, List.nodup_append]
        refine ⟨List.Pairwise.filter _ (h1 l (by simp)).1, ih (fun l hl => h1 l (List.mem_cons_of_mem _ hl)) h2.2, ?_⟩
        intro a ha b hb e
        subst e
        rw [List.mem_filter, observes_iff] at ha
        obtain ⟨l', hl', hb⟩ := List.mem_flatMap.1 hb
        rw [List.mem_filter, observes_iff] at hb
        exact h2.1 (List.mem_map.2 ⟨l', hl', hb.2.2.1.symm.trans ha.2.2.1⟩)
    exact key _ hall hnd
  · have : (((chain ++ [(0, g)] : List (Nat × List Del)).filter (fun e => e.2.any (observes e.1 x.ty x.name))).map (·.1)).Sublist
        ((chain ++ [(0, g)] : List (Nat × List Del)).map (·.1)) := List.filter_sublist.map _
    exact this.nodup hnd
  · intro n
    simp only [determine, List.mem_map, List.mem_filter, List.any_eq_true, List.mem_flatMap, observes_iff]
    constructor
    · rintro ⟨l, ⟨h1, d, h2, h3⟩, rfl⟩
      exact ⟨d, ⟨l, h1, h2, h3⟩, h3.2.1⟩
    · rintro ⟨d, ⟨l, h1, h2, h3⟩, rfl⟩
      exact ⟨l, ⟨h1, d, h2, h3⟩, h3.2.1.symm⟩

theorem obsAdded_ok {regs : List Del} {ids : List Nat} {x : Src} (h : SrcOK regs ids x) {d : Del} (i : Nat) (hd : d ∉ regs)
    (hty : d.ty = x.ty) (hpt : d.pt = 0 ∨ d.pt ∈ ids) (hm : catMatch d.name x.name = true) :
    SrcOK (regs ++ [d]) ids (obsAdded i x d.pt d).1 := by
  refine ⟨?_, ?_, ?_, ?_, ?_⟩
  · simp only [obsAdded]
    rw [List.nodup_append]
    refine ⟨h.nodup, by simp, ?_⟩
    intro a ha b hb e
    rw [List.mem_singleton] at hb
    subst hb; subst e
    exact hd ((h.mem _).1 ha).1
  · intro d'
    simp only [obsAdded, List.mem_append, List.mem_singleton, h.mem]
    constructor
    · rintro (h1 | rfl)
      · exact ⟨.inl h1.1, h1.2⟩
      · exact ⟨.inr rfl, hty, hpt, hm⟩
    · rintro ⟨h1 | h1, h2⟩
      · exact .inl ⟨h1, h2⟩
      · exact .inr h1
  · simp only [obsAdded]
    split
    · exact h.nnodup
    · rename_i hc
      rw [List.nodup_append]
      refine ⟨h.nnodup, by simp, ?_⟩
      intro a ha b hb e
      rw [List.mem_singleton] at hb
      subst hb; subst e
      exact hc (by simpa using ha)
  · intro n
    simp only [obsAdded, List.mem_append, List.mem_singleton]
    have : (n ∈ (if x.nodes.contains d.pt = true then x.nodes else x.nodes ++ [d.pt])) ↔ n ∈ x.nodes ∨ n = d.pt := by
      split
      · rename_i hc
        have hc : d.pt ∈ x.nodes := by simpa using hc
        constructor
        · exact .inl
        · rintro (h | rfl)
          · exact h
          · exact hc
      · simp
    rw [this, h.nmem]
    constructor
    · rintro (⟨d', h1, h2⟩ | rfl)
      · exact ⟨d', .inl h1, h2⟩
      · exact ⟨d, .inr rfl, rfl⟩
    · rintro ⟨d', h1 | rfl, h2⟩
      · exact .inl ⟨d', h1, h2⟩
      · exact .inr h2.symm
  · simp [obsAdded]

theorem obsRemoved_ok {regs : List Del} {ids : List Nat} {x : Src} (h : SrcOK regs ids x) (hr : regs.Nodup) (d : Del) (i : Nat)  :
    SrcOK (regs.erase d) ids (obsRemoved i x d.pt d).1 := by
  have hm : ∀ d', d' ∈ x.dels.erase d ↔ d' ≠ d ∧ d' ∈ x.dels := fun d' => h.nodup.mem_erase_iff
  refine ⟨h.nodup.erase d, ?_, ?_, ?_, rfl⟩
  · intro d'
    show d' ∈ x.dels.erase d ↔ _
    rw [hm, h.mem, hr.mem_erase_iff]
    simp only [obsRemoved, and_assoc]
  · simp only [obsRemoved]
    split
    · exact h.nnodup
    · exact h.nnodup.erase _
  · intro n
    simp only [obsRemoved]
    split
    · rename_i hc
      obtain ⟨d0, h1, h2⟩ := List.any_eq_true.1 hc
      rw [beq_iff_eq] at h2
      rw [h.nmem]
      constructor
      · rintro ⟨d', h3, h4⟩
        by_cases e : d' = d
        · exact ⟨d0, h1, by rw [h2, ← e, h4]⟩
        · exact ⟨d', (hm d').2 ⟨e, h3⟩, h4⟩
      · rintro ⟨d', h3, h4⟩
        exact ⟨d', ((hm d').1 h3).2, h4⟩
    · rename_i hc
      rw [h.nnodup.mem_erase_iff, h.nmem]
      constructor
      · rintro ⟨hne, d', h3, h4⟩
        exact ⟨d', (hm d').2 ⟨fun e => hne (by rw [← h4, e]), h3⟩, h4⟩
      · rintro ⟨d', h3, h4⟩
        refine ⟨fun e => hc ?_, d', ((hm d').1 h3).2, h4⟩
        exact List.any_eq_true.2 ⟨d', h3, by rw [beq_iff_eq, h4, e]⟩

end Sparta.Notify
