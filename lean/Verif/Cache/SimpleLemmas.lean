import Verif.Cache.Lemmas
/-! `SimpleCache` simulates a plain memory. -/
namespace Sparta.Cache

/-- the cache with its memory stands for the plain memory `M` (on proper addresses) -/
structure SRep {σ} (g : Geo) (P : σ → Prop) (s : Simple σ) (M : Nat → Nat) : Prop where
  reps : Reps P s.c
  lines : LInv g s.c.at'
  cached : ∀ i w, w < g.nWays → (s.c.at' i w).valid = true → ∀ o < g.line, (s.c.at' i w).data o = M ((s.c.at' i w).addr + o)
  uncached : ∀ x, g.Proper x → ¬ Has g s.c.at' (g.block x) → s.mem x = M x
  clean : ∀ i w, w < g.nWays → (s.c.at' i w).valid = true → (s.c.at' i w).modified = false →
    ∀ o < g.line, s.mem ((s.c.at' i w).addr + o) = M ((s.c.at' i w).addr + o)

theorem put_in (m : Nat → Nat) (a : Nat) (bs : List Nat) (x : Nat) (h : a ≤ x ∧ x < a + bs.length) :
    put m a bs x = bs.getD (x - a) 0 := if_pos h
theorem put_out (m : Nat → Nat) (a : Nat) (bs : List Nat) (x : Nat) (h : ¬ (a ≤ x ∧ x < a + bs.length)) :
    put m a bs x = m x := if_neg h

theorem get_length (m : Nat → Nat) (a n : Nat) : (get m a n).length = n := by simp [get]

theorem put_get (m m' : Nat → Nat) (a n b x : Nat) (h : b ≤ x ∧ x < b + n) : put m b (get m' a n) x = m' (a + (x - b)) := by
  rw [put_in _ _ _ _ (by rw [get_length]; exact h)]
  simp [get]
  rw [List.getElem?_eq_getElem (by simp; omega)]
  simp

/-- an address inside the block of `a` has that block -/
theorem Geo.Nice.block_of {g : Geo} (N : g.Nice) {a x : Nat} (ha : g.Proper a) (h1 : g.block a ≤ x)
    (h2 : x < g.block a + g.line) : g.Proper x ∧ g.block x = g.block a ∧ g.off x = x - g.block a := by
  have := N.inside a (x - g.block a) ha (by omega)
  rw [show g.block a + (x - g.block a) = x by omega] at this
  exact this

theorem SRep.find_none {σ} {g : Geo} (N : g.Nice) {P : σ → Prop} {s : Simple σ} {M : Nat → Nat} (R : SRep g P s M)
    {a : Nat} (ha : g.Proper a) (h : s.c.find g a = none) : ¬ Has g s.c.at' (g.block a) := by
  rw [← Cache.isHit_iff N R.lines ha]
  simp [Cache.isHit, h]

/-- `replaceLine_` brings the block in -/
theorem SRep.replaceLine {σ} {g : Geo} (N : g.Nice) {p : Policy σ} {P : σ → Prop} (hl : ∀ s, P s → p.lru s < g.nWays)
    {s : Simple σ} {M : Nat → Nat} (R : SRep g P s M) {a : Nat} (ha : g.Proper a) (h : s.c.find g a = none) :
    SRep g P (s.replaceLine g p a).1 M ∧ (s.replaceLine g p a).2 < g.nWays ∧
    ((s.replaceLine g p a).1.c.at' (g.idx a) (s.replaceLine g p a).2).valid = true ∧
    ((s.replaceLine g p a).1.c.at' (g.idx a) (s.replaceLine g p a).2).addr = g.block a ∧
    (s.replaceLine g p a).1.through = s.through := by
  have hm := R.find_none N ha h
  have hb := N.proper a ha
  have hk := (N.key _ _ hb.1 ha).1 hb.2
  unfold Simple.replaceLine
  simp only
  have hw := hl _ (R.reps (g.idx a))
  generalize p.lru (s.c.sets (g.idx a)).rep = w at hw
  generalize hmem : (if ((s.c.sets (g.idx a)).ways w).valid && ((s.c.sets (g.idx a)).ways w).modified then put s.mem ((s.c.sets (g.idx a)).ways w).addr (get ((s.c.sets (g.idx a)).ways w).data 0 g.line) else s.mem) = mem
  change (if (s.c.at' (g.idx a) w).valid && (s.c.at' (g.idx a) w).modified then put s.mem (s.c.at' (g.idx a) w).addr (get (s.c.at' (g.idx a) w).data 0 g.line) else s.mem) = mem at hmem
  -- the memory after the castout
  have hvb : (s.c.at' (g.idx a) w).valid = true → (s.c.at' (g.idx a) w).addr ≠ g.block a :=
    fun hv he => hm ⟨_, w, hw, hv, he⟩
  have memOut : ∀ x, g.Proper x → ((s.c.at' (g.idx a) w).valid = true → g.block x ≠ (s.c.at' (g.idx a) w).addr) →
      mem x = s.mem x := by
    intro x hx hne
    rw [← hmem]
    split
    · rename_i hc
      simp at hc
      apply put_out
      rw [get_length]
      rintro ⟨h1, h2⟩
      obtain ⟨i1, i2, _⟩ := R.lines.line _ _ hw hc.1
      rw [← i2] at h1 h2
      exact hne hc.1 (by rw [(N.block_of i1 h1 h2).2.1, i2])
    · rfl
  have memIn : (s.c.at' (g.idx a) w).valid = true → ∀ o < g.line,
      mem ((s.c.at' (g.idx a) w).addr + o) = M ((s.c.at' (g.idx a) w).addr + o) := by
    intro hv o ho
    rw [← hmem]
    split
    · rw [put_get _ _ _ _ _ _ (by omega), Nat.add_sub_cancel_left, Nat.zero_add]
      exact R.cached _ _ hw hv o ho
    · rename_i hc
      simp [hv] at hc
      exact R.clean _ _ hw hv hc o ho
  have hset := at_setLine s.c (g.idx a) w { Line.setAddr g (s.c.at' (g.idx a) w) (g.block a) with valid := true, modified := false, data := fun o => mem (g.block a + o) }
  have haddr : g.block (g.block a) = g.block a := hb.2
  have htag : g.tag (g.block a) = g.tag a := hk.1
  refine ⟨⟨R.reps.setLine _ _ _, ?_, ?_, ?_, ?_⟩, hw, ?_, ?_, trivial⟩
  · show LInv g (s.c.setLine (g.idx a) w _).at'
    rw [at_setLine]
    exact R.lines.put N ha hm _ _ haddr htag
  · show ∀ i w', w' < g.nWays → ((s.c.setLine (g.idx a) w _).at' i w').valid = true → ∀ o < g.line, _
    intro i w' hw' hv o ho
    show ((s.c.setLine (g.idx a) w _).at' i w').data o = M (((s.c.setLine (g.idx a) w _).at' i w').addr + o)
    rw [at_setLine] at hv ⊢
    by_cases hc : i = g.idx a ∧ w' = w
    · obtain ⟨rfl, rfl⟩ := hc
      rw [setAt_same]
      show mem (g.block a + o) = M (g.block (g.block a) + o)
      rw [haddr]
      obtain ⟨x1, x2, _⟩ := N.inside a o ha ho
      rw [memOut _ x1 (fun hv' he => hvb hv' (by rw [← he, x2]))]
      exact R.uncached _ x1 (by rw [x2]; exact hm)
    · rw [setAt_other _ _ hc] at hv ⊢
      exact R.cached i w' hw' hv o ho
  · intro x hx hnh
    change ¬ Has g (s.c.setLine (g.idx a) w _).at' (g.block x) at hnh
    show mem x = M x
    rw [at_setLine, R.lines.has_put N w hw _ haddr rfl] at hnh
    rw [not_or] at hnh
    by_cases hv : (s.c.at' (g.idx a) w).valid = true ∧ (s.c.at' (g.idx a) w).addr = g.block x
    · obtain ⟨x1, x2, _⟩ := N.split x hx
      have := memIn hv.1 (g.off x) x2
      rwa [hv.2, x1] at this
    · have hnx : ¬ Has g s.c.at' (g.block x) := fun hh => hnh.2 ⟨hh, hv⟩
      rw [memOut x hx (fun h1 h2 => hv ⟨h1, h2.symm⟩)]
      exact R.uncached x hx hnx
  · intro i w' hw' hv hmod o ho
    change ((s.c.setLine (g.idx a) w _).at' i w').valid = true at hv
    change ((s.c.setLine (g.idx a) w _).at' i w').modified = false at hmod
    show mem (((s.c.setLine (g.idx a) w _).at' i w').addr + o) = M (((s.c.setLine (g.idx a) w _).at' i w').addr + o)
    rw [at_setLine] at hv hmod ⊢
    by_cases hc : i = g.idx a ∧ w' = w
    · obtain ⟨rfl, rfl⟩ := hc
      rw [setAt_same]
      show mem (g.block (g.block a) + o) = M (g.block (g.block a) + o)
      rw [haddr]
      obtain ⟨x1, x2, _⟩ := N.inside a o ha ho
      rw [memOut _ x1 (fun hv' he => hvb hv' (by rw [← he, x2]))]
      exact R.uncached _ x1 (by rw [x2]; exact hm)
    · rw [setAt_other _ _ hc] at hv hmod ⊢
      obtain ⟨i1, i2, _⟩ := R.lines.line i w' hw' hv
      obtain ⟨x1, x2, _⟩ := N.inside _ o i1 ho
      rw [i2] at x1 x2
      rw [memOut _ x1 ?_]
      · exact R.clean i w' hw' hv hmod o ho
      · intro hv' he
        rw [x2] at he
        exact hc (R.lines.addr_inj N hw' hw hv hv' he)
  · show ((s.c.setLine (g.idx a) w _).at' (g.idx a) w).valid = true
    rw [at_setLine, setAt_same]
  · show ((s.c.setLine (g.idx a) w _).at' (g.idx a) w).addr = g.block a
    rw [at_setLine, setAt_same]
    exact haddr

theorem SRep.touch {σ} {g : Geo} {p : Policy σ} {P : σ → Prop}
    (hp : ∀ s w, P s → w < g.nWays → P (p.touchMRU s w) ∧ P (p.touchLRU s w)) {s : Simple σ} {M : Nat → Nat}
    (R : SRep g P s M) (i w : Nat) (hw : w < g.nWays) : SRep g P { s with c := s.c.touchMRU p i w } M := by
  have e := at_touchMRU p s.c i w
  refine ⟨R.reps.touchMRU hp _ _ hw, ?_, ?_, ?_, ?_⟩
  · rw [e]; exact R.lines
  · rw [e]; exact R.cached
  · rw [e]; exact R.uncached
  · rw [e]; exact R.clean

theorem get_eq {m m' : Nat → Nat} {a b n : Nat} (h : ∀ i < n, m (a + i) = m' (b + i)) : get m a n = get m' b n := by
  unfold get
  apply List.map_congr_left
  intro i hi
  exact h i (by simpa using hi)

theorem SRep.read {σ} {g : Geo} (N : g.Nice) {p : Policy σ} {P : σ → Prop} (hl : ∀ s, P s → p.lru s < g.nWays)
    (hp : ∀ s w, P s → w < g.nWays → P (p.touchMRU s w) ∧ P (p.touchLRU s w)) {s : Simple σ} {M : Nat → Nat}
    (R : SRep g P s M) {a n : Nat} (ha : g.Proper a) (hn : a % g.line + n ≤ g.line) :
    SRep g P (s.read g p a n).1 M ∧ (s.read g p a n).2 = some (get M a n) := by
  obtain ⟨x1, x2, x3⟩ := N.split a ha
  have aux : ∀ (s' : Simple σ) (w : Nat), SRep g P s' M → w < g.nWays → (s'.c.at' (g.idx a) w).valid = true →
      (s'.c.at' (g.idx a) w).addr = g.block a →
      SRep g P { s' with c := s'.c.touchMRU p (g.idx a) w } M ∧
      Line.read g ((s'.c.touchMRU p (g.idx a) w).at' (g.idx a) w) (g.off a) n = some (get M a n) := by
    intro s' w R' hw hv hadr
    refine ⟨R'.touch hp _ _ hw, ?_⟩
    rw [at_touchMRU]
    unfold Line.read
    rw [if_pos (by omega)]
    congr 1
    apply get_eq
    intro i hi
    rw [R'.cached _ _ hw hv _ (by omega), hadr]
    congr 1
    omega
  unfold Simple.read
  cases h : s.c.find g a with
  | some w =>
    obtain ⟨h1, h2, h3⟩ := Cache.find_some N R.lines ha h
    exact aux s w R h1 h2 h3
  | none =>
    obtain ⟨h1, h2, h3, h4, _⟩ := R.replaceLine N hl ha h (p := p)
    exact aux _ _ h1 h2 h3 h4

/-- changing memory inside the block of `a`, on both sides -/
theorem put_other {g : Geo} (N : g.Nice) {a : Nat} (ha : g.Proper a) {bs : List Nat} (hb : a % g.line + bs.length ≤ g.line)
    (m : Nat → Nat) {x : Nat} (hne : g.block x ≠ g.block a) : put m a bs x = m x := by
  apply put_out
  rintro ⟨h1, h2⟩
  obtain ⟨x1, x2, x3⟩ := N.split a ha
  exact hne (N.block_of ha (by omega) (by omega)).2.1

theorem SRep.writeLine {σ} {g : Geo} (N : g.Nice) {p : Policy σ} {P : σ → Prop}
    (hp : ∀ s w, P s → w < g.nWays → P (p.touchMRU s w) ∧ P (p.touchLRU s w)) {s : Simple σ} {M : Nat → Nat}
    (R : SRep g P s M) {a w : Nat} {bs : List Nat} (ha : g.Proper a) (hn : a % g.line + bs.length ≤ g.line) (hw : w < g.nWays)
    (hv : (s.c.at' (g.idx a) w).valid = true) (hadr : (s.c.at' (g.idx a) w).addr = g.block a) (thr : Bool) :
    ∃ s', (s.writeLine g p w a bs).map (fun s' => if thr then { s' with mem := put s'.mem a bs } else s') = some s' ∧
      SRep g P s' (put M a bs) := by
  obtain ⟨x1, x2, x3⟩ := N.split a ha
  unfold Simple.writeLine
  simp only
  have e0 : ((s.c.touchMRU p (g.idx a) w).sets (g.idx a)).ways w = s.c.at' (g.idx a) w := by
    show (s.c.touchMRU p (g.idx a) w).at' (g.idx a) w = _
    rw [at_touchMRU]
  rw [e0]
  unfold Line.write
  rw [if_pos (by omega)]
  simp only [Option.map_some]
  generalize hs' : ({ s with c := (s.c.touchMRU p (g.idx a) w).setLine (g.idx a) w { s.c.at' (g.idx a) w with data := put (s.c.at' (g.idx a) w).data (g.off a) bs, modified := true } } : Simple σ) = s'
  have e1 : s'.c.at' = setAt s.c.at' (g.idx a) w { s.c.at' (g.idx a) w with data := put (s.c.at' (g.idx a) w).data (g.off a) bs, modified := true } := by
    rw [← hs']; exact (at_setLine _ _ _ _).trans (by rw [at_touchMRU])
  have em : s'.mem = s.mem := by rw [← hs']
  have er : Reps P s'.c := by rw [← hs']; exact (R.reps.touchMRU hp _ _ hw).setLine _ _ _
  have hsame := R.lines.same (g.idx a) w { s.c.at' (g.idx a) w with data := put (s.c.at' (g.idx a) w).data (g.off a) bs, modified := true } rfl rfl rfl
  rw [← e1] at hsame
  have hcached : ∀ i w', w' < g.nWays → (s'.c.at' i w').valid = true → ∀ o < g.line,
      (s'.c.at' i w').data o = put M a bs ((s'.c.at' i w').addr + o) := by
    intro i w' hw' hv' o ho
    rw [e1] at hv' ⊢
    by_cases hc : i = g.idx a ∧ w' = w
    · obtain ⟨rfl, rfl⟩ := hc
      rw [setAt_same]
      show put (s.c.at' (g.idx a) w').data (g.off a) bs o = put M a bs ((s.c.at' (g.idx a) w').addr + o)
      rw [hadr]
      by_cases hin : g.off a ≤ o ∧ o < g.off a + bs.length
      · rw [put_in _ _ _ _ hin, put_in _ _ _ _ (by omega)]
        congr 1; omega
      · rw [put_out _ _ _ _ hin, put_out _ _ _ _ (by omega), R.cached _ _ hw hv o ho, hadr]
    · rw [setAt_other _ _ hc] at hv' ⊢
      obtain ⟨i1, i2, _⟩ := R.lines.line i w' hw' hv'
      obtain ⟨y1, y2, _⟩ := N.inside _ o i1 ho
      rw [i2] at y2
      rw [put_other N ha hn _ (by rw [y2, ← hadr]; exact fun he => hc (R.lines.addr_inj N hw' hw hv' hv he))]
      exact R.cached i w' hw' hv' o ho
  have huncached : ∀ x, g.Proper x → ¬ Has g s'.c.at' (g.block x) → s.mem x = put M a bs x ∧ g.block x ≠ g.block a := by
    intro x hx hnh
    rw [hsame.2] at hnh
    have hne : g.block x ≠ g.block a := fun he => hnh ⟨_, w, hw, hv, by rw [hadr, he]⟩
    exact ⟨by rw [put_other N ha hn _ hne]; exact R.uncached x hx hnh, hne⟩
  have hclean : ∀ i w', w' < g.nWays → (s'.c.at' i w').valid = true → (s'.c.at' i w').modified = false →
      ∀ o < g.line, s.mem ((s'.c.at' i w').addr + o) = put M a bs ((s'.c.at' i w').addr + o) ∧
        g.block ((s'.c.at' i w').addr + o) ≠ g.block a := by
    intro i w' hw' hv' hm' o ho
    rw [e1] at hv' hm' ⊢
    by_cases hc : i = g.idx a ∧ w' = w
    · obtain ⟨rfl, rfl⟩ := hc
      rw [setAt_same] at hm'
      cases hm'
    · rw [setAt_other _ _ hc] at hv' hm' ⊢
      obtain ⟨i1, i2, _⟩ := R.lines.line i w' hw' hv'
      obtain ⟨y1, y2, _⟩ := N.inside _ o i1 ho
      rw [i2] at y2
      have hne : g.block ((s.c.at' i w').addr + o) ≠ g.block a := by
        rw [y2, ← hadr]; exact fun he => hc (R.lines.addr_inj N hw' hw hv' hv he)
      exact ⟨by rw [put_other N ha hn _ hne]; exact R.clean i w' hw' hv' hm' o ho, hne⟩
  refine ⟨if thr then { s' with mem := put s'.mem a bs } else s', by rw [← hs'], ?_⟩
  clear hs'
  cases thr with
  | false =>
    refine ⟨er, hsame.1, hcached, ?_, ?_⟩
    · intro x hx hnh
      show s'.mem x = _
      rw [em]; exact (huncached x hx hnh).1
    · intro i w' hw' hv' hm' o ho
      show s'.mem _ = _
      rw [em]; exact (hclean i w' hw' hv' hm' o ho).1
  | true =>
    refine ⟨er, hsame.1, hcached, ?_, ?_⟩
    · intro x hx hnh
      show put s'.mem a bs x = _
      obtain ⟨h1, h2⟩ := huncached x hx hnh
      rw [put_other N ha hn _ h2, em]; exact h1
    · intro i w' hw' hv' hm' o ho
      show put s'.mem a bs ((s'.c.at' i w').addr + o) = put M a bs ((s'.c.at' i w').addr + o)
      obtain ⟨h1, h2⟩ := hclean i w' hw' hv' hm' o ho
      rw [put_other N ha hn _ h2, em]; exact h1

theorem SRep.write {σ} {g : Geo} (N : g.Nice) {p : Policy σ} {P : σ → Prop} (hl : ∀ s, P s → p.lru s < g.nWays)
    (hp : ∀ s w, P s → w < g.nWays → P (p.touchMRU s w) ∧ P (p.touchLRU s w)) {s : Simple σ} {M : Nat → Nat}
    (R : SRep g P s M) {a : Nat} {bs : List Nat} (ha : g.Proper a) (hn : a % g.line + bs.length ≤ g.line) :
    ∃ s', s.write g p a bs = some s' ∧ SRep g P s' (put M a bs) := by
  unfold Simple.write
  cases h : s.c.find g a with
  | some w =>
    obtain ⟨h1, h2, h3⟩ := Cache.find_some N R.lines ha h
    exact R.writeLine N hp ha hn h1 h2 h3 s.through
  | none =>
    simp only
    split
    · obtain ⟨h1, h2, h3, h4, _⟩ := R.replaceLine N hl ha h (p := p)
      exact h1.writeLine N hp ha hn h2 h3 h4 s.through
    · have hm := R.find_none N ha h
      refine ⟨_, rfl, R.reps, R.lines, ?_, ?_, ?_⟩
      · intro i w hw hv o ho
        obtain ⟨i1, i2, _⟩ := R.lines.line i w hw hv
        obtain ⟨y1, y2, _⟩ := N.inside _ o i1 ho
        rw [i2] at y2
        rw [put_other N ha hn _ (by rw [y2]; exact fun he => hm ⟨i, w, hw, hv, he⟩)]
        exact R.cached i w hw hv o ho
      · intro x hx hnh
        show put s.mem a bs x = _
        have := R.uncached x hx hnh
        unfold put
        rw [this]
      · intro i w hw hv hmd o ho
        obtain ⟨i1, i2, _⟩ := R.lines.line i w hw hv
        obtain ⟨y1, y2, _⟩ := N.inside _ o i1 ho
        rw [i2] at y2
        show put s.mem a bs _ = _
        have hne : g.block ((s.c.at' i w).addr + o) ≠ g.block a := by rw [y2]; exact fun he => hm ⟨i, w, hw, hv, he⟩
        rw [put_other N ha hn _ hne, put_other N ha hn _ hne]
        exact R.clean i w hw hv hmd o ho

theorem SRep.step {σ} {g : Geo} (N : g.Nice) {p : Policy σ} {P : σ → Prop} (hl : ∀ s, P s → p.lru s < g.nWays)
    (hp : ∀ s w, P s → w < g.nWays → P (p.touchMRU s w) ∧ P (p.touchLRU s w)) {s : Simple σ} {M : Nat → Nat}
    (R : SRep g P s M) (o : SOp) (ho : Within g M o) :
    SRep g P (s.step g p o).1 (flatStep M o).1 ∧ (s.step g p o).2 = (flatStep M o).2 := by
  cases o with
  | read a n => exact R.read N hl hp ho.1 ho.2
  | write a bs =>
    obtain ⟨s', h1, h2⟩ := R.write N hl hp ho.1 ho.2 (bs := bs)
    simp only [Simple.step, h1, Option.getD_some, flatStep]
    exact ⟨h2, trivial⟩
  | getLine a =>
    refine ⟨?_, rfl⟩
    show SRep g P (s.getLine g p a) M
    unfold Simple.getLine
    cases h : s.c.find g a with
    | some w => exact R.touch hp _ _ (Cache.find_some N R.lines ho h).1
    | none =>
      obtain ⟨h1, h2, _⟩ := R.replaceLine N hl ho h (p := p)
      exact h1.touch hp _ _ h2
  | setThrough b => exact ⟨⟨R.reps, R.lines, R.cached, R.uncached, R.clean⟩, rfl⟩
  | setAllocate b => exact ⟨⟨R.reps, R.lines, R.cached, R.uncached, R.clean⟩, rfl⟩

end Sparta.Cache
