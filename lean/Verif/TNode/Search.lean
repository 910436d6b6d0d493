import Verif.TNode.Lookup
import Verif.PTree.Pattern
/-!
Searching with patterns.
-/
namespace Sparta.TNode
open Sparta.Strings (Str)
open Sparta.PTree (joinDots names names_join Tok tok tokMatch dot Glob OkName)

/-! ### captures -/

theorem capture_isSome (r : List Tok) (t : Str) : (capture r t).isSome = tokMatch r t := by
  fun_induction capture r t with
  | case1 t h => rw [tokMatch, h]; rfl
  | case2 t h => rw [tokMatch]; simp only [Bool.not_eq_true] at h; rw [h]; rfl
  | case3 c r d t h ih => rw [tokMatch, h, ih]; simp
  | case4 c r d t h => rw [tokMatch]; simp only [Bool.not_eq_true] at h; rw [h]; rfl
  | case5 => rw [tokMatch]; rfl
  | case6 r ih => rw [tokMatch, Option.isSome_map, ih]
  | case7 r d t l h ih =>
    rw [tokMatch]
    split at h
    · rename_i hd
      have : tokMatch r t = true := by rw [← ih, h]; rfl
      rw [hd, this]; simp
    · cases h
  | case8 r d t h ih1 ih2 =>
    rw [tokMatch, Option.isSome_map, ih2]
    have : (dot d && tokMatch r t) = false := by
      split at h
      · rename_i hd
        rw [← ih1, h]; simp
      · rename_i hd; simp only [Bool.not_eq_true] at hd; rw [hd]; rfl
    rw [this, Bool.or_false]
  | case9 r ih => rw [tokMatch, Option.isSome_map, ih]
  | case10 r d t u l h ih =>
    rw [tokMatch]
    split at h
    · rename_i hd
      have : tokMatch (.star :: r) t = true := by rw [← ih, h]; rfl
      rw [hd, this]; simp
    · cases h
  | case11 r d t h ih1 ih2 =>
    rw [tokMatch, Option.isSome_map, ih2]
    have : (dot d && tokMatch (.star :: r) t) = false := by
      cases hd : dot d with
      | false => rfl
      | true =>
        rw [← ih1]
        cases hc : capture (.star :: r) t with
        | none => rfl
        | some l =>
          cases l with
          | nil =>
            exfalso
            clear h ih1 ih2
            unfold capture at hc
            split at hc <;> simp_all
            split at hc
            · simp at hc
            · simp at hc
          | cons u l => exact absurd (by rw [hd]; exact hc) (h u l)
    rw [this, Bool.or_false]
  | case12 => rw [tokMatch]; rfl
  | case13 r d t hd u l h ih =>
    rw [tokMatch, hd]
    have : tokMatch (.plus :: r) t = true := by rw [← ih, h]; rfl
    rw [this]; simp
  | case14 r d t hd h ih1 ih2 =>
    rw [tokMatch, hd, Option.isSome_map, ih2]
    have : tokMatch (.plus :: r) t = false := by
      rw [← ih1]
      cases hc : capture (.plus :: r) t with
      | none => rfl
      | some l =>
        cases l with
        | nil =>
          exfalso
          clear h ih1 ih2
          unfold capture at hc
          split at hc <;> simp_all
          split at hc
          · simp at hc
          · simp at hc
        | cons u l => exact absurd hc (h u l)
    rw [this]; simp
  | case15 r d t hd => rw [tokMatch]; simp only [Bool.not_eq_true] at hd; rw [hd]; rfl

/-- the texts captured, put in place of the wildcards, give the text -/
inductive FillT : List Tok → List Str → Str → Prop
  | nil : FillT [] [] []
  | lit {c : Char} {r : List Tok} {rs : List Str} {t : Str} : FillT r rs t → FillT (.lit c :: r) rs (c :: t)
  | wild {w : Tok} {r : List Tok} {rs : List Str} {u t : Str} : (∀ c, w ≠ .lit c) → FillT r rs t → FillT (w :: r) (u :: rs) (u ++ t)

theorem FillT.more {w : Tok} {r : List Tok} {rs : List Str} {u t : Str} {d : Char} (hw : ∀ c, w ≠ .lit c)
    (h : FillT (w :: r) (u :: rs) t) : FillT (w :: r) ((d :: u) :: rs) (d :: t) := by
  cases h with
  | lit h => exact absurd rfl (hw _)
  | wild _ h => exact .wild (u := d :: u) hw h

theorem capture_fill (r : List Tok) (t : Str) : ∀ {rs}, capture r t = some rs → FillT r rs t := by
  fun_induction capture r t with
  | case1 t h => intro rs hr; cases hr; rw [List.isEmpty_iff.1 h]; exact .nil
  | case2 t h => intro rs hr; cases hr
  | case3 c r d t h ih => intro rs hr; rw [← beq_iff_eq.1 h]; exact .lit (ih hr)
  | case4 c r d t h => intro rs hr; cases hr
  | case5 => intro rs hr; cases hr
  | case6 r ih =>
    intro rs hr
    obtain ⟨l, hl, rfl⟩ := Option.map_eq_some_iff.1 hr
    exact .wild (u := []) (fun c h => nomatch h) (ih hl)
  | case7 r d t l h ih =>
    intro rs hr; cases hr
    split at h
    · exact .wild (u := [d]) (fun c h => nomatch h) (ih h)
    · cases h
  | case8 r d t h ih1 ih2 =>
    intro rs hr
    obtain ⟨l, hl, rfl⟩ := Option.map_eq_some_iff.1 hr
    exact .wild (u := []) (fun c h => nomatch h) (ih2 hl)
  | case9 r ih =>
    intro rs hr
    obtain ⟨l, hl, rfl⟩ := Option.map_eq_some_iff.1 hr
    exact .wild (u := []) (fun c h => nomatch h) (ih hl)
  | case10 r d t u l h ih =>
    intro rs hr; cases hr
    split at h
    · exact (ih h).more (fun c h => nomatch h)
    · cases h
  | case11 r d t h ih1 ih2 =>
    intro rs hr
    obtain ⟨l, hl, rfl⟩ := Option.map_eq_some_iff.1 hr
    exact .wild (u := []) (fun c h => nomatch h) (ih2 hl)
  | case12 => intro rs hr; cases hr
  | case13 r d t hd u l h ih => intro rs hr; cases hr; exact (ih h).more (fun c h => nomatch h)
  | case14 r d t hd h ih1 ih2 =>
    intro rs hr
    obtain ⟨l, hl, rfl⟩ := Option.map_eq_some_iff.1 hr
    exact .wild (u := [d]) (fun c h => nomatch h) (ih2 hl)
  | case15 r d t hd => intro rs hr; cases hr

theorem fill_of_fillT {p : Str} {rs : List Str} {t : Str} (h : FillT (p.map tok) rs t) : Fill p rs t := by
  induction p generalizing rs t with
  | nil => cases h; exact .nil
  | cons c p ih =>
    rw [List.map_cons] at h
    by_cases hc : isWild c = true
    · generalize hq : tok c = q at h
      cases h with
      | lit h =>
        exfalso
        revert hq
        unfold isWild at hc
        simp only [Bool.or_eq_true, beq_iff_eq] at hc
        rcases hc with (rfl | rfl) | rfl <;> simp [tok]
      | wild _ h => exact .wild hc (ih h)
    · have hc' : isWild c = false := by simpa using hc
      have hq : tok c = .lit c := by
        unfold isWild at hc
        simp only [Bool.or_eq_true, beq_iff_eq, not_or] at hc
        simp [tok, hc.1.1, hc.1.2, hc.2]
      rw [hq] at h
      cases h with
      | lit h => exact .lit hc' (ih h)
      | wild hw h => exact absurd rfl (hw c)

theorem Fill.length {p : Str} {rs : List Str} {t : Str} (h : Fill p rs t) : rs.length = p.countP isWild := by
  induction h with
  | nil => rfl
  | lit hc _ ih => rw [List.countP_cons_of_neg (by rw [hc]; simp), ih]
  | wild hc _ ih => rw [List.countP_cons_of_pos hc, List.length_cons, ih]

theorem capture_some_iff {p t : Str} : (∃ rs, capture (p.map tok) t = some rs) ↔ Glob p t := by
  rw [← PTree.tokMatch_glob, ← capture_isSome]
  exact Option.isSome_iff_exists.symm

theorem regexOf_ok {nm : Str} (h : OkName nm) : regexOf nm = .ok (nm.map tok) := by
  unfold regexOf; rw [PTree.parse_pattern nm h]

/-! ### one level -/

/-- what may be given out -/
def Vis (s : St) (all : Bool) (n c : Nat) : Prop := all = true ∨ levelOf s c = levelOf s n

theorem consider_ok {s : St} {all : Bool} {n c : Nat} (hn : (s.node n).isSome) (hc : (s.node c).isSome) :
    ∃ b, consider s all n c = .ok b ∧ (b = true ↔ Vis s all n c) := by
  obtain ⟨nd, hnd⟩ := Option.isSome_iff_exists.1 hn
  obtain ⟨cd, hcd⟩ := Option.isSome_iff_exists.1 hc
  unfold consider Vis
  by_cases ha : all = true
  · rw [if_pos ha]; exact ⟨true, rfl, by simp [ha]⟩
  · rw [if_neg ha]
    refine ⟨nd.priv == cd.priv, by unfold canSee; rw [hnd, hcd], ?_⟩
    rw [levelOf_some hnd, levelOf_some hcd, beq_iff_eq]
    constructor
    · intro h; exact .inr h.symm
    · rintro (h | h)
      · exact absurd h ha
      · exact h.symm

theorem immLoop_spec {s : St} {all : Bool} {n : Nat} {r : List Tok} (hn : (s.node n).isSome) (es : List (Str × Nat))
    (found : List (Nat × List Str)) (hes : ∀ e ∈ es, (s.node e.2).isSome) :
    ∃ out, immLoop s all n r es found = .ok (found ++ out) ∧
      (∀ c reps, (c, reps) ∈ out → ∃ k, (k, c) ∈ es ∧ capture r k = some reps ∧ Vis s all n c) ∧
      (∀ k c, (k, c) ∈ es → (capture r k).isSome → Vis s all n c → c ∈ (found ++ out).map Prod.fst) ∧
      ((found.map Prod.fst).Nodup → ((found ++ out).map Prod.fst).Nodup) := by
  induction es generalizing found with
  | nil => exact ⟨[], by simp [immLoop], by simp, by simp, by simp⟩
  | cons e es ih =>
    have hes' : ∀ e ∈ es, (s.node e.2).isSome := fun x hx => hes x (List.mem_cons_of_mem _ hx)
    rw [immLoop]
    have skip : (∀ k c, (k, c) = e → (capture r k).isSome → Vis s all n c → c ∈ found.map Prod.fst) →
        ∃ out, immLoop s all n r es found = .ok (found ++ out) ∧
          (∀ c reps, (c, reps) ∈ out → ∃ k, (k, c) ∈ e :: es ∧ capture r k = some reps ∧ Vis s all n c) ∧
          (∀ k c, (k, c) ∈ e :: es → (capture r k).isSome → Vis s all n c → c ∈ (found ++ out).map Prod.fst) ∧
          ((found.map Prod.fst).Nodup → ((found ++ out).map Prod.fst).Nodup) := by
      intro hsk
      obtain ⟨out, h1, h2, h3, h4⟩ := ih found hes'
      refine ⟨out, h1, ?_, ?_, h4⟩
      · intro c reps hc
        obtain ⟨k, hk, h⟩ := h2 c reps hc
        exact ⟨k, List.mem_cons_of_mem _ hk, h⟩
      · intro k c hk hcap hvis
        rcases List.mem_cons.1 hk with hk | hk
        · rw [List.map_append]
          exact List.mem_append_left _ (hsk k c hk hcap hvis)
        · exact h3 k c hk hcap hvis
    cases hcap : capture r e.1 with
    | none =>
      dsimp only
      refine skip ?_
      rintro k c rfl hk _
      rw [hcap] at hk; cases hk
    | some reps =>
      obtain ⟨b, hb, hbv⟩ := consider_ok (all := all) hn (hes e List.mem_cons_self)
      dsimp only
      rw [hb]
      cases b with
      | false =>
        dsimp only
        refine skip ?_
        rintro k c rfl _ hv
        exact absurd (hbv.2 hv) (by simp)
      | true =>
        dsimp only
        by_cases hf : found.any (fun f => f.1 == e.2) = true
        · rw [if_pos hf]
          refine skip ?_
          rintro k c rfl _ _
          obtain ⟨f, hf1, hf2⟩ := List.any_eq_true.1 hf
          exact List.mem_map.2 ⟨f, hf1, beq_iff_eq.1 hf2⟩
        · rw [if_neg hf]
          obtain ⟨out, h1, h2, h3, h4⟩ := ih (found ++ [(e.2, reps)]) hes'
          refine ⟨(e.2, reps) :: out, by rw [h1]; simp, ?_, ?_, ?_⟩
          · intro c reps' hc
            rcases List.mem_cons.1 hc with hc | hc
            · cases hc
              exact ⟨e.1, List.mem_cons_self, hcap, hbv.1 rfl⟩
            · obtain ⟨k, hk, h⟩ := h2 c reps' hc
              exact ⟨k, List.mem_cons_of_mem _ hk, h⟩
          · intro k c hk hcap' hvis
            have := h3 k c
            rw [List.append_assoc] at this
            rcases List.mem_cons.1 hk with hk | hk
            · have : c = e.2 := by rw [← hk]
              rw [this]; simp
            · exact this hk hcap' hvis
          · intro hnd
            rw [List.append_assoc] at h4
            refine h4 ?_
            rw [List.map_append, List.nodup_append]
            refine ⟨hnd, by simp, ?_⟩
            intro a ha b hb hab
            simp only [List.map_cons, List.map_nil, List.mem_singleton] at hb
            apply hf
            obtain ⟨f, hf1, hf2⟩ := List.mem_map.1 ha
            exact List.any_eq_true.2 ⟨f, hf1, by rw [beq_iff_eq, hf2, hab, hb]⟩

/-! ### all levels -/

theorem below_ok {f : Nat → Except Err (List (Nat × List Str))} {cs : List (Nat × List Str)}
    (hf : ∀ c reps, (c, reps) ∈ cs → ∃ xs, f c = .ok xs) :
    ∃ out, below f cs = .ok out ∧
      ∀ x reps, (x, reps) ∈ out ↔ ∃ c r1 xs r2, (c, r1) ∈ cs ∧ f c = .ok xs ∧ (x, r2) ∈ xs ∧ reps = r1 ++ r2.reverse := by
  induction cs with
  | nil => exact ⟨[], rfl, by simp⟩
  | cons a cs ih =>
    obtain ⟨c, r1⟩ := a
    obtain ⟨xs, hxs⟩ := hf c r1 List.mem_cons_self
    obtain ⟨out, h1, h2⟩ := ih (fun c reps h => hf c reps (List.mem_cons_of_mem _ h))
    refine ⟨xs.map (fun x => (x.1, r1 ++ x.2.reverse)) ++ out, by rw [below, hxs, h1], ?_⟩
    intro x reps
    rw [List.mem_append, h2]
    constructor
    · rintro (h | ⟨c', r1', xs', r2', h3, h4⟩)
      · obtain ⟨⟨y, r2⟩, hy, e⟩ := List.mem_map.1 h
        cases e
        exact ⟨c, r1, xs, r2, List.mem_cons_self, hxs, hy, rfl⟩
      · exact ⟨c', r1', xs', r2', List.mem_cons_of_mem _ h3, h4⟩
    · rintro ⟨c', r1', xs', r2', h3, h4, h5, h6⟩
      rcases List.mem_cons.1 h3 with h3 | h3
      · cases h3
        rw [hxs] at h4; cases h4
        exact .inl (List.mem_map.2 ⟨(x, r2'), h5, by rw [h6]⟩)
      · exact .inr ⟨c', r1', xs', r2', h3, h4, h5, h6⟩

theorem find_spec {s : St} (hw : WF s) (hn : NOK s) {all : Bool} {L : List Str} (hL : ∀ p ∈ L, OkName p) {n : Nat}
    (ha : (s.node n).isSome) :
    ∃ xs, find s all L n = .ok xs ∧ (∀ x reps, (x, reps) ∈ xs → Reach s all (keysOf s) L n x) ∧
      (∀ x, Reach s all (identsOf s) L n x → ∃ reps, (x, reps) ∈ xs) ∧
      (Full s → ∀ x, Reach s all (keysOf s) L n x → ∃ reps, (x, reps) ∈ xs) := by
  induction L generalizing n with
  | nil =>
    refine ⟨[(n, [])], rfl, ?_, ?_, ?_⟩
    · intro x reps h
      have := List.mem_singleton.1 h
      cases this; exact .here n
    · intro x h; cases h; exact ⟨[], List.mem_singleton.2 rfl⟩
    · intro _ x h; cases h; exact ⟨[], List.mem_singleton.2 rfl⟩
  | cons nm L ih =>
    have hL' : ∀ p ∈ L, OkName p := fun p hp => hL p (List.mem_cons_of_mem _ hp)
    obtain ⟨nd, hnd⟩ := Option.isSome_iff_exists.1 ha
    have hpar : parentOf s n = nd.parent := parentOf_some hnd
    rw [find, hnd]
    dsimp only
    by_cases hnm : nm = []
    · rw [if_pos hnm]
      cases hp : nd.parent with
      | none =>
        refine ⟨[], rfl, (fun _ _ h => by cases h), ?_, ?_⟩
        · intro x h
          cases h with
          | up h1 _ => rw [hpar, hp] at h1; cases h1
          | down h1 => exact absurd hnm h1
        · intro _ x h
          cases h with
          | up h1 _ => rw [hpar, hp] at h1; cases h1
          | down h1 => exact absurd hnm h1
      | some p =>
        obtain ⟨pd, hpd, -⟩ := hw.parent_alive hnd hp
        obtain ⟨xs, h1, h2, h3, h4⟩ := ih hL' (n := p) (by rw [hpd]; rfl)
        refine ⟨xs, h1, ?_, ?_, ?_⟩
        · intro x reps hx
          rw [hnm]; exact .up (hpar.trans hp) (h2 x reps hx)
        · intro x h
          cases h with
          | up h5 h6 => rw [hpar, hp] at h5; cases h5; exact h3 x h6
          | down h5 => exact absurd hnm h5
        · intro hfull x h
          cases h with
          | up h5 h6 => rw [hpar, hp] at h5; cases h5; exact h4 hfull x h6
          | down h5 => exact absurd hnm h5
    · rw [if_neg hnm, regexOf_ok (hL nm List.mem_cons_self)]
      dsimp only
      obtain ⟨cs, hcs, hc1, hc2, -⟩ := immLoop_spec (s := s) (all := all) (n := n) (r := nm.map tok) ha nd.names [] (by
        intro e he
        obtain ⟨cd, hcd, -⟩ := hn.sound n nd e.1 e.2 hnd he
        rw [hcd]; rfl)
      rw [List.nil_append] at hcs
      rw [hcs]
      dsimp only
      have hsub : ∀ c reps, (c, reps) ∈ cs → (s.node c).isSome := by
        intro c reps hc
        obtain ⟨k, hk, -⟩ := hc1 c reps hc
        obtain ⟨cd, hcd, -⟩ := hn.sound n nd k c hnd hk
        rw [hcd]; rfl
      obtain ⟨out, ho, hout⟩ := below_ok (f := find s all L) (cs := cs) (fun c reps hc => by
        obtain ⟨xs, hx, -⟩ := ih hL' (hsub c reps hc)
        exact ⟨xs, hx⟩)
      have hfwd : ∀ {K : Nat → List Str} (x c : Nat) (k : Str), (k, c) ∈ nd.names → Glob nm k → Vis s all n c →
          (∀ xs, find s all L c = .ok xs → ∃ reps, (x, reps) ∈ xs) → ∃ reps, (x, reps) ∈ out := by
        intro K x c k hk hg hv hx
        have := hc2 k c hk (Option.isSome_iff_exists.2 (capture_some_iff.2 hg)) hv
        rw [List.nil_append] at this
        obtain ⟨⟨c', r1⟩, hm, e⟩ := List.mem_map.1 this
        cases e
        obtain ⟨xs, hxs, -⟩ := ih hL' (hsub c' r1 hm)
        obtain ⟨r2, hr2⟩ := hx xs hxs
        exact ⟨_, (hout x _).2 ⟨c', r1, xs, r2, hm, hxs, hr2, rfl⟩⟩
      refine ⟨out, ho, ?_, ?_, ?_⟩
      · intro x reps hx
        obtain ⟨c, r1, xs, r2, hc, hxs, hx2, -⟩ := (hout x reps).1 hx
        obtain ⟨k, hk, hcap, hv⟩ := hc1 c r1 hc
        obtain ⟨cd, hcd, hcp, hck⟩ := hn.sound n nd k c hnd hk
        obtain ⟨xs', hxs', h2, -⟩ := ih hL' (hsub c r1 hc)
        rw [hxs] at hxs'; cases hxs'
        exact .down hnm (by rw [parentOf_some hcd]; exact hcp) (by rw [keysOf_some hcd]; exact hck) (capture_some_iff.1 ⟨r1, hcap⟩)
          hv (h2 x r2 hx2)
      · intro x h
        cases h with
        | up => exact absurd rfl hnm
        | @down _ c _ _ k _ _ h1 h2 h3 h4 h5 =>
          obtain ⟨cd, hcd, hcp⟩ := parentOf_alive h1
          rw [identsOf_some hcd] at h2
          refine hfwd (K := identsOf s) x c k (lookup_mem (hn.complete c cd n nd k hcd hcp hnd h2)) h3 h4 ?_
          intro xs hxs
          obtain ⟨xs', hxs', -, h6, -⟩ := ih hL' (n := c) (by rw [hcd]; rfl)
          rw [hxs] at hxs'; cases hxs'
          exact h6 x h5
      · intro hfull x h
        cases h with
        | up => exact absurd rfl hnm
        | @down _ c _ _ k _ _ h1 h2 h3 h4 h5 =>
          obtain ⟨cd, hcd, hcp⟩ := parentOf_alive h1
          rw [keysOf_some hcd] at h2
          refine hfwd (K := keysOf s) x c k (hfull c cd n nd k hcd hcp hnd h2) h3 h4 ?_
          intro xs hxs
          obtain ⟨xs', hxs', -, -, h6⟩ := ih hL' (n := c) (by rw [hcd]; rfl)
          rw [hxs] at hxs'; cases hxs'
          exact h6 hfull x h5

/-! ### replacements -/

theorem find_reps {s : St} (hn : NOK s) {all : Bool} {L : List Str} (hL : ∀ p ∈ L, OkName p) (hne : ∀ p ∈ L, p ≠ []) {n : Nat}
    {xs : List (Nat × List Str)} (h : find s all L n = .ok xs) {x : Nat} {reps : List Str} (hx : (x, reps) ∈ xs)
    (ha : ∀ n nd k c, s.node n = some nd → (k, c) ∈ nd.names → (s.node c).isSome) :
    ∃ ks rs, Down s (keysOf s) n ks x ∧ FillPath L rs ks ∧ reps = scramble rs := by
  induction L generalizing n xs x reps with
  | nil =>
    cases h
    have := List.mem_singleton.1 hx
    cases this
    exact ⟨[], [], .here _, .nil, rfl⟩
  | cons nm L ih =>
    have hL' : ∀ p ∈ L, OkName p := fun p hp => hL p (List.mem_cons_of_mem _ hp)
    have hne' : ∀ p ∈ L, p ≠ [] := fun p hp => hne p (List.mem_cons_of_mem _ hp)
    rw [find] at h
    cases hnd : s.node n with
    | none => rw [hnd] at h; cases h
    | some nd =>
      rw [hnd] at h
      dsimp only at h
      rw [if_neg (hne nm List.mem_cons_self), regexOf_ok (hL nm List.mem_cons_self)] at h
      dsimp only at h
      obtain ⟨cs, hcs, hc1, -, -⟩ := immLoop_spec (s := s) (all := all) (n := n) (r := nm.map tok) (by rw [hnd]; rfl) nd.names []
        (fun e he => ha n nd e.1 e.2 hnd he)
      rw [List.nil_append] at hcs
      rw [hcs] at h
      dsimp only at h
      have hmem : ∀ cs xs, below (find s all L) cs = .ok xs → ∀ x reps, (x, reps) ∈ xs →
          ∃ c r1 ys r2, (c, r1) ∈ cs ∧ find s all L c = .ok ys ∧ (x, r2) ∈ ys ∧ reps = r1 ++ r2.reverse := by
        intro cs
        induction cs with
        | nil => intro xs h x reps hx; cases h; cases hx
        | cons a cs ih2 =>
          obtain ⟨c, r1⟩ := a
          intro xs h x reps hx
          rw [below] at h
          split at h
          · cases h
          rename_i ys hys
          split at h
          · cases h
          rename_i zs hzs
          cases h
          rcases List.mem_append.1 hx with hx | hx
          · obtain ⟨⟨y, r2⟩, hy, e⟩ := List.mem_map.1 hx
            cases e
            exact ⟨c, r1, ys, r2, List.mem_cons_self, hys, hy, rfl⟩
          · obtain ⟨c', r1', ys', r2', h3, h4⟩ := ih2 zs hzs x reps hx
            exact ⟨c', r1', ys', r2', List.mem_cons_of_mem _ h3, h4⟩
      obtain ⟨c, r1, ys, r2, hc, hys, hx2, e⟩ := hmem cs xs h x reps hx
      obtain ⟨k, hk, hcap, -⟩ := hc1 c r1 hc
      obtain ⟨cd, hcd, hcp, hck⟩ := hn.sound n nd k c hnd hk
      obtain ⟨ks, rs, h1, h2, h3⟩ := ih hL' hne' hys hx2
      refine ⟨k :: ks, r1 :: rs, .step (by rw [parentOf_some hcd]; exact hcp) (by rw [keysOf_some hcd]; exact hck) h1,
        .cons (fill_of_fillT (capture_fill _ _ hcap)) h2, ?_⟩
      rw [e, h3]; rfl

theorem FillPath.length {L : List Str} {rs : List (List Str)} {ks : List Str} (h : FillPath L rs ks) : rs.flatten.length = wilds L := by
  induction h with
  | nil => rfl
  | @cons p t r L ts rs h1 _ ih =>
    rw [List.flatten_cons, List.length_append, ih, h1.length]
    simp [wilds]

theorem scramble_length (rs : List (List Str)) : (scramble rs).length = rs.flatten.length := by
  induction rs with
  | nil => rfl
  | cons r rs ih => rw [scramble, List.length_append, List.length_reverse, ih]; simp

theorem reverse_short {α : Type _} {l : List α} (h : l.length ≤ 1) : l.reverse = l := by
  match l, h with
  | [], _ => rfl
  | [a], _ => rfl

theorem scramble_short {rs : List (List Str)} (h : rs.flatten.length ≤ 1) : scramble rs = rs.flatten := by
  induction rs with
  | nil => rfl
  | cons r rs ih =>
    rw [List.flatten_cons, List.length_append] at h
    rw [scramble, ih (by omega), reverse_short (by omega)]; rfl

theorem scramble_tail {r : List Str} {rs : List (List Str)} (h : rs.flatten.length ≤ 1) : scramble (r :: rs) = (r :: rs).flatten := by
  rw [scramble, scramble_short h, reverse_short h]; rfl

/-! ### nothing twice -/

/-- so many levels up -/
def upN (s : St) : Nat → Nat → Option Nat
  | 0, n => some n
  | k + 1, n =>
    match upN s k n with
    | none => none
    | some m => parentOf s m

theorem Down.upN {s : St} {K : Nat → List Str} {n x : Nat} {ks : List Str} (h : Down s K n ks x) : upN s ks.length x = some n := by
  induction h with
  | here n => rfl
  | step h1 _ _ ih => rw [List.length_cons, TNode.upN, ih]; exact h1

theorem Reach.path {s : St} {all : Bool} {K : Nat → List Str} {L : List Str} {n x : Nat} (h : Reach s all K L n x)
    (hne : ∀ p ∈ L, p ≠ []) : ∃ ks, Down s K n ks x ∧ PTree.MatchPath L ks := by
  induction h with
  | here n => exact ⟨[], .here n, trivial⟩
  | up => exact absurd rfl (hne [] List.mem_cons_self)
  | @down n c x nm k L h1 h2 h3 h4 h5 _ ih =>
    obtain ⟨ks, h6, h7⟩ := ih (fun p hp => hne p (List.mem_cons_of_mem _ hp))
    exact ⟨k :: ks, .step h2 h3 h6, h4, h7⟩

theorem matchPath_length {L ks : List Str} (h : PTree.MatchPath L ks) : ks.length = L.length := by
  induction L generalizing ks with
  | nil => cases ks with
    | nil => rfl
    | cons => exact h.elim
  | cons a L ih => cases ks with
    | nil => exact h.elim
    | cons b ks => rw [List.length_cons, List.length_cons, ih h.2]

theorem nodup_find {s : St} (hw : WF s) (hn : NOK s) {all : Bool} {L : List Str} (hL : ∀ p ∈ L, OkName p) (hne : ∀ p ∈ L, p ≠ [])
    {n : Nat} (ha : (s.node n).isSome) {xs : List (Nat × List Str)} (h : find s all L n = .ok xs) : (xs.map Prod.fst).Nodup := by
  induction L generalizing n xs with
  | nil => cases h; simp
  | cons nm L ih =>
    have hL' : ∀ p ∈ L, OkName p := fun p hp => hL p (List.mem_cons_of_mem _ hp)
    have hne' : ∀ p ∈ L, p ≠ [] := fun p hp => hne p (List.mem_cons_of_mem _ hp)
    obtain ⟨nd, hnd⟩ := Option.isSome_iff_exists.1 ha
    rw [find, hnd] at h
    dsimp only at h
    rw [if_neg (hne nm List.mem_cons_self), regexOf_ok (hL nm List.mem_cons_self)] at h
    dsimp only at h
    obtain ⟨cs, hcs, hc1, -, hc3⟩ := immLoop_spec (s := s) (all := all) (n := n) (r := nm.map tok) ha nd.names []
      (fun e he => by
        obtain ⟨cd, hcd, -⟩ := hn.sound n nd e.1 e.2 hnd he
        rw [hcd]; rfl)
    rw [List.nil_append] at hcs hc3
    rw [hcs] at h
    dsimp only at h
    have hsub : ∀ c reps, (c, reps) ∈ cs → (s.node c).isSome := by
      intro c reps hc
      obtain ⟨k, hk, -⟩ := hc1 c reps hc
      obtain ⟨cd, hcd, -⟩ := hn.sound n nd k c hnd hk
      rw [hcd]; rfl
    have hcn := hc3 List.nodup_nil
    clear hc1 hc3 hcs
    -- every result below `c` has `c` so many levels above it
    have hup : ∀ c ys, (s.node c).isSome → find s all L c = .ok ys → ∀ x ∈ ys.map Prod.fst, upN s L.length x = some c := by
      intro c ys hc hys x hx
      obtain ⟨⟨y, r⟩, hy, e⟩ := List.mem_map.1 hx
      cases e
      obtain ⟨ys', hys', h2, -⟩ := find_spec hw hn (all := all) hL' hc
      rw [hys] at hys'; cases hys'
      obtain ⟨ks, h3, h4⟩ := (h2 y r hy).path hne'
      rw [← matchPath_length h4]
      exact h3.upN
    induction cs generalizing xs with
    | nil => cases h; simp
    | cons a cs ih2 =>
      obtain ⟨c, r1⟩ := a
      rw [below] at h
      split at h
      · cases h
      rename_i ys hys
      split at h
      · cases h
      rename_i zs hzs
      cases h
      rw [List.map_cons] at hcn
      have hcn' := List.nodup_cons.1 hcn
      have hc := hsub c r1 List.mem_cons_self
      have e : (ys.map (fun x => (x.1, r1 ++ x.2.reverse))).map Prod.fst = ys.map Prod.fst := by
        rw [List.map_map]; rfl
      rw [List.map_append, e, List.nodup_append]
      have hsub' : ∀ c reps, (c, reps) ∈ cs → (s.node c).isSome := fun c reps h => hsub c reps (List.mem_cons_of_mem _ h)
      refine ⟨ih hL' hne' hc hys, ih2 hzs hsub' hcn'.2, ?_⟩
      intro x hx y hy hxy
      rw [← hxy] at hy
      have h1 := hup c ys hc hys x hx
      -- where `y` comes from
      have hfrom : ∀ (cs : List (Nat × List Str)) zs, below (find s all L) cs = .ok zs →
          ∀ x ∈ zs.map Prod.fst, ∃ c r ys, (c, r) ∈ cs ∧ find s all L c = .ok ys ∧ x ∈ ys.map Prod.fst := by
        intro cs
        induction cs with
        | nil => intro zs h x hx; cases h; cases hx
        | cons a cs ih3 =>
          obtain ⟨c', r'⟩ := a
          intro zs h x hx
          rw [below] at h
          split at h
          · cases h
          rename_i us hus
          split at h
          · cases h
          rename_i vs hvs
          cases h
          rw [List.map_append] at hx
          rcases List.mem_append.1 hx with hx | hx
          · rw [List.map_map] at hx
            exact ⟨c', r', us, List.mem_cons_self, hus, hx⟩
          · obtain ⟨c2, r2, ws, h3, h4, h5⟩ := ih3 vs hvs x hx
            exact ⟨c2, r2, ws, List.mem_cons_of_mem _ h3, h4, h5⟩
      obtain ⟨c2, r2, ws, h3, h4, h5⟩ := hfrom cs zs hzs x hy
      have h6 := hup c2 ws (hsub' c2 r2 h3) h4 x h5
      rw [h1] at h6; cases h6
      exact hcn'.1 (List.mem_map.2 ⟨(c, r2), h3, rfl⟩)

end Sparta.TNode
