import Verif.MemIf.Lemmas7

/-!
# C101-C105: memory interfaces

`Reach ops s t`: `s` is the system and `t` the state of the specification after the history `ops`, which
starts without objects and interfaces and respects the preconditions `Spec.legal`. `t.loc i a` is the byte
(object, offset) that address `a` of interface `i` denotes, followed through the mappings accepted so far.
-/

namespace Sparta.MemIf

open Sparta.MemoryMap (wordSize Mapping)

def Reach (ops : List Op) (s : Sys) (t : Spec) : Prop :=
  legalOps Spec.step Spec.legal Spec.empty ops ∧ s = (runOps step Sys.empty ops).1 ∧ t = (runOps Spec.step Spec.empty ops).1

theorem Reach.rep {ops s t} (h : Reach ops s t) : SRep s t := by
  obtain ⟨h1, rfl, rfl⟩ := h
  exact (runOps_simulation_legal step Spec.step Spec.legal SRep (fun s t o r hl => rep_step s t o r hl)
    Sys.empty Spec.empty rep_empty ops h1).1

/-- a memory of 16 bytes in lines of 4, and two maps, the second on the first -/
def demo : List Op :=
  [.newObj 2 0xab 1 16, .newObjNode 0, .newMapNode 4 32, .addMapping 1 8 16 0 4, .addMapping 1 16 24 0 4,
   .newMapNode 4 64, .addMapping 2 32 48 1 8, .observe 1 true true, .observe 0 false true]

theorem demo_legal : legalOps Spec.step Spec.legal Spec.empty demo := by decide +kernel

/-! ### C101 -/

/-- every call returns what the flat bytes and the accepted mappings say; counters and notifications
as specified -/
theorem C101_refinement (ops : List Op) (h : legalOps Spec.step Spec.legal Spec.empty ops) :
    (runOps step Sys.empty ops).2 = (runOps Spec.step Spec.empty ops).2 ∧
    (runOps step Sys.empty ops).1.notes = (runOps Spec.step Spec.empty ops).1.notes ∧
    (runOps step Sys.empty ops).1.reads = (runOps Spec.step Spec.empty ops).1.reads ∧
    (runOps step Sys.empty ops).1.writes = (runOps Spec.step Spec.empty ops).1.writes ∧
    (runOps step Sys.empty ops).1.dmis = (runOps Spec.step Spec.empty ops).1.dmis := by
  have r := runOps_simulation_legal step Spec.step Spec.legal SRep (fun s t o r hl => rep_step s t o r hl)
    Sys.empty Spec.empty rep_empty ops h
  exact ⟨r.2, r.1.notes, r.1.reads, r.1.writes, r.1.dmis⟩

example : legalOps Spec.step Spec.legal Spec.empty
    (demo ++ [.write 2 34 [1, 2], .read 1 18 2, .tryPoke 0 7 [3, 4, 5], .getDMI 2 40 2, .dmiWrite 0 8 [6], .peek 1 11 4]) := by
  decide +kernel

/-- no legal history meets an exception other than the documented ones, an assertion or an endless loop in
an access -/
theorem C101_no_throw {ops s t} (h : Reach ops s t) (i a k : Nat) (bs : Bytes) (hi : i < t.nNode) (hs : sized a k)
    (hb : sized a bs.length) :
    (step s (.tryRead i a k)).2 ≠ .threw ∧ (step s (.tryPeek i a k)).2 ≠ .threw ∧ (step s (.read i a k)).2 ≠ .threw ∧
    (step s (.peek i a k)).2 ≠ .threw ∧ (step s (.tryWrite i a bs)).2 ≠ .threw ∧ (step s (.tryPoke i a bs)).2 ≠ .threw ∧
    (step s (.write i a bs)).2 ≠ .threw ∧ (step s (.poke i a bs)).2 ≠ .threw := by
  have r := h.rep
  refine ⟨?_, ?_, ?_, ?_, ?_, ?_, ?_, ?_⟩
  · rw [(rep_step s t (.tryRead i a k) r ⟨hi, hs⟩).2]; unfold Spec.step; dsimp only; split <;> simp
  · rw [(rep_step s t (.tryPeek i a k) r ⟨hi, hs⟩).2]; unfold Spec.step; dsimp only; split <;> simp
  · rw [(rep_step s t (.read i a k) r ⟨hi, hs⟩).2]; unfold Spec.step; dsimp only; split <;> simp
  · rw [(rep_step s t (.peek i a k) r ⟨hi, hs⟩).2]; unfold Spec.step; dsimp only; split <;> simp
  · rw [(rep_step s t (.tryWrite i a bs) r ⟨hi, hb⟩).2]; unfold Spec.step; dsimp only; split <;> simp
  · rw [(rep_step s t (.tryPoke i a bs) r ⟨hi, hb⟩).2]; unfold Spec.step; dsimp only; split <;> simp
  · rw [(rep_step s t (.write i a bs) r ⟨hi, hb⟩).2]; unfold Spec.step; dsimp only; split <;> simp
  · rw [(rep_step s t (.poke i a bs) r ⟨hi, hb⟩).2]; unfold Spec.step; dsimp only; split <;> simp

/-- a peek of a range gives the peeks of its bytes, and fails if one of them fails -/
theorem C101_bytewise {ops s t} (h : Reach ops s t) (i a k : Nat) (hi : i < t.nNode) (hs : sized a k) (d : Bytes) :
    (step s (.tryPeek i a k)).2 = .data d ↔
      d.length = k ∧ ∀ (q : Nat) (b : UInt8), d[q]? = some b → (step s (.tryPeek i (a + q) 1)).2 = .data [b] := by
  have r := h.rep
  rw [step_peek r hi hs, Spec.tryPeek]
  constructor
  · intro he
    split at he
    · cases he
    · rename_i d' hd
      split at hd
      · rename_i hm
        cases hd
        cases he
        refine ⟨by simp [Spec.load], ?_⟩
        intro q b hq
        have hql : q < k := by
          have := (List.getElem?_eq_some_iff.1 hq).1
          simpa [Spec.load] using this
        have hl : (t.loc i (a + q)).isSome = true := (List.all_eq_true.1 hm) q (List.mem_range.2 hql)
        rw [peek_one r hi ⟨by omega, by have := hs.2; omega⟩, if_pos hl]
        rw [Spec.load, List.getElem?_map, List.getElem?_range hql] at hq
        cases hq; rfl
      · cases hd
  · rintro ⟨hl, hq⟩
    have hm : t.mapped i a k = true := by
      unfold Spec.mapped
      rw [List.all_eq_true]
      intro q hq'
      have hql := List.mem_range.1 hq'
      have := hq q d[q] (List.getElem?_eq_getElem (by omega))
      rw [peek_one r hi ⟨by omega, by have := hs.2; omega⟩] at this
      split at this
      · assumption
      · cases this
    rw [if_pos hm]
    dsimp only
    congr 1
    apply List.ext_getElem?
    intro q
    by_cases hql : q < k
    · have := hq q d[q] (List.getElem?_eq_getElem (by omega))
      rw [peek_one r hi ⟨by omega, by have := hs.2; omega⟩] at this
      rw [Spec.load, List.getElem?_map, List.getElem?_range hql, List.getElem?_eq_getElem (by omega)]
      split at this
      · have e := this
        simp only [Res.data.injEq, List.cons.injEq, and_true] at e
        rw [← e]; rfl
      · cases this
    · rw [List.getElem?_eq_none (by simp [Spec.load]; omega), List.getElem?_eq_none (by omega)]

example : ∃ s t, Reach demo s t ∧ (step s (.tryPeek 2 34 7)).2 = .data [0xab, 0xab, 0xab, 0xab, 0xab, 0xab, 0xab] :=
  ⟨_, _, ⟨demo_legal, rfl, rfl⟩, by decide +kernel⟩

/-- a successful write is seen at every address of every interface that denotes a byte written, and nowhere else -/
theorem C101_write {ops s t} (h : Reach ops s t) (i a : Nat) (bs : Bytes) (hi : i < t.nNode) (hb : sized a bs.length)
    (hy : (step s (.tryWrite i a bs)).2 = .yes) (j b : Nat) (hj : j < t.nNode) (hs : sized b 1) :
    ((∀ p, p < bs.length → t.loc j b ≠ t.loc i (a + p)) →
      (step (step s (.tryWrite i a bs)).1 (.tryPeek j b 1)).2 = (step s (.tryPeek j b 1)).2) ∧
    (∀ (p : Nat) (v : UInt8), bs[p]? = some v → t.loc j b = t.loc i (a + p) →
      (step (step s (.tryWrite i a bs)).1 (.tryPeek j b 1)).2 = .data [v]) := by
  have r := h.rep
  have hl : t.legal (.tryWrite i a bs) := ⟨hi, hb⟩
  obtain ⟨n, hn⟩ := Option.ne_none_iff_exists'.1 ((r.nodeLt i).2 hi)
  rw [(rep_step s t _ r hl).2] at hy
  have hok : t.crosses i a bs.length = false ∧ t.mapped i a bs.length = true := by
    unfold Spec.step at hy
    dsimp only at hy
    split at hy
    · rename_i h
      unfold Spec.tryWrite at h
      dsimp only at h
      by_cases hc : t.crosses i a bs.length = false ∧ t.mapped i a bs.length = true
      · exact hc
      · rw [if_neg hc] at h; cases h
    · cases hy
  have hib : inBlock n.bs a bs.length := by
    by_cases hh : inBlock n.bs a bs.length
    · exact hh
    · rw [(crosses_eq r.cfg hn hb.1).2 hh] at hok; exact absurd hok.1 (by simp)
  have hst : (t.step (.tryWrite i a bs)).1.nodes = (t.store i a bs).nodes ∧
      (t.step (.tryWrite i a bs)).1.objs = (t.store i a bs).objs ∧ (t.step (.tryWrite i a bs)).1.nNode = t.nNode := by
    have hm := hok.2
    rw [mapped_block r.cfg hn hib hb.1] at hm
    cases hlo : t.loc i a with
    | none => rw [hlo] at hm; cases hm
    | some q =>
      obtain ⟨o, x⟩ := q
      show (t.tryWrite i a bs).1.nodes = _ ∧ (t.tryWrite i a bs).1.objs = _ ∧ (t.tryWrite i a bs).1.nNode = _
      rw [tryWrite_ok r.cfg hn hb.1 hib hlo, store_block bs r.cfg hn hib hlo]
      exact ⟨rfl, rfl, rfl⟩
  have hall : ∀ p, p < bs.length → (t.loc i (a + p)).isSome = true := fun p hp =>
    (List.all_eq_true.1 hok.2) p (List.mem_range.2 hp)
  obtain ⟨g1, g2⟩ := seen_store r hl hn hst.1 hst.2.1 hst.2.2 hj hs
  refine ⟨fun h => g1 (fun p hp e => h p hp e.1), fun p v hv hlp => ?_⟩
  have hp : p < bs.length := (List.getElem?_eq_some_iff.1 hv).1
  refine g2 p v hv hlp (by rw [hlp]; exact hall p hp) ?_
  intro p' h1 h2 he
  have hl0 := hall 0 (by omega)
  rw [Nat.add_zero] at hl0
  cases hlo : t.loc i a with
  | none => rw [hlo] at hl0; cases hl0
  | some q =>
    obtain ⟨o, x⟩ := q
    rw [loc_add r.cfg hn hib h2 hlo, loc_add r.cfg hn hib hp hlo] at he
    simp at he; omega

/-- the byte at address 34 of the second map is that at address 18 and at address 10 of the first and at address 6
of the memory -/
example : ∃ s t, Reach demo s t ∧ (step s (.tryWrite 2 34 [7, 8])).2 = .yes ∧ t.loc 1 18 = t.loc 2 34 ∧
    t.loc 0 7 = t.loc 2 35 ∧ t.loc 1 19 ≠ none ∧ t.loc 0 4 ≠ t.loc 2 34 ∧ t.loc 0 4 ≠ t.loc 2 35 :=
  ⟨_, _, ⟨demo_legal, rfl, rfl⟩, by decide +kernel⟩

/-- likewise pokes, which may cross blocks: where two of their addresses denote the same byte the later one counts -/
theorem C101_poke {ops s t} (h : Reach ops s t) (i a : Nat) (bs : Bytes) (hi : i < t.nNode) (hb : sized a bs.length)
    (hy : (step s (.tryPoke i a bs)).2 = .yes) (j b : Nat) (hj : j < t.nNode) (hs : sized b 1) :
    ((∀ p, p < bs.length → t.loc j b ≠ t.loc i (a + p)) →
      (step (step s (.tryPoke i a bs)).1 (.tryPeek j b 1)).2 = (step s (.tryPeek j b 1)).2) ∧
    (∀ (p : Nat) (v : UInt8), bs[p]? = some v → t.loc j b = t.loc i (a + p) →
      (∀ p', p < p' → p' < bs.length → t.loc i (a + p') ≠ t.loc i (a + p)) →
      (step (step s (.tryPoke i a bs)).1 (.tryPeek j b 1)).2 = .data [v]) := by
  have r := h.rep
  have hl : t.legal (.tryPoke i a bs) := ⟨hi, hb⟩
  obtain ⟨n, hn⟩ := Option.ne_none_iff_exists'.1 ((r.nodeLt i).2 hi)
  rw [(rep_step s t _ r hl).2] at hy
  have hok : t.within i a bs.length = true ∧ t.reach i a bs.length = bs.length := by
    unfold Spec.step at hy
    dsimp only at hy
    split at hy
    · rename_i h
      unfold Spec.tryPoke at h
      by_cases hc : t.within i a bs.length = true
      · rw [if_pos hc] at h; exact ⟨hc, by simpa using h⟩
      · rw [if_neg hc] at h; cases h
    · cases hy
  have hall : ∀ p, p < bs.length → (t.loc i (a + p)).isSome = true := by
    intro p hp
    have h1 := hok.2
    unfold Spec.reach at h1
    have h2 : ((List.range bs.length).takeWhile fun j => (t.loc i (a + j)).isSome) = List.range bs.length :=
      List.Sublist.eq_of_length (List.takeWhile_sublist _) (by rw [h1]; simp)
    have h3 : p ∈ (List.range bs.length).takeWhile fun j => (t.loc i (a + j)).isSome := by rw [h2]; exact List.mem_range.2 hp
    have h4 := List.all_takeWhile (p := fun j => (t.loc i (a + j)).isSome) (l := List.range bs.length)
    exact (List.all_eq_true.1 h4) p h3
  have e : (t.step (.tryPoke i a bs)).1 = t.store i a bs := by
    show (t.tryPoke i a bs).1 = _
    unfold Spec.tryPoke
    rw [if_pos hok.1, hok.2, List.take_length]
  obtain ⟨g1, g2⟩ := seen_store r hl hn (by rw [e]) (by rw [e]) (by rw [e]; exact store_nNode _ _ _ _) hj hs
  refine ⟨fun h => g1 (fun p hp e => h p hp e.1), fun p v hv hlp hlast => ?_⟩
  have hp : p < bs.length := (List.getElem?_eq_some_iff.1 hv).1
  exact g2 p v hv hlp (by rw [hlp]; exact hall p hp) hlast

/-- a poke over two windows on the same bytes -/
example : ∃ s t, Reach demo s t ∧ (step s (.tryPoke 1 10 [1, 2, 3, 4, 5, 6, 7, 8, 9, 10])).2 = .yes ∧
    t.loc 1 10 = t.loc 1 18 := ⟨_, _, ⟨demo_legal, rfl, rfl⟩, by decide +kernel⟩

/-- `MapIn s i start stop memif dest`: map `i` has an accepted mapping of `start` to `stop` on interface `memif`
from address `dest` on -/
def MapIn (t : Spec) (i start stop memif dest : Nat) : Prop :=
  ∃ n ms, t.nodes i = some n ∧ n.kind = .map ms ∧ (⟨start, stop, dest, memif⟩ : Mapping) ∈ ms

/-- a mapping once accepted stays -/
theorem C101_mapping_stays (pre post : List Op) (i start stop memif dest : Nat)
    (h : legalOps Spec.step Spec.legal Spec.empty (pre ++ .addMapping i start stop memif dest :: post))
    (hy : (step (runOps step Sys.empty pre).1 (.addMapping i start stop memif dest)).2 = .yes) :
    MapIn (runOps Spec.step Spec.empty (pre ++ .addMapping i start stop memif dest :: post)).1 i start stop memif dest := by
  have hsplit : ∀ (l1 l2 : List Op) (t : Spec), legalOps Spec.step Spec.legal t (l1 ++ l2) →
      legalOps Spec.step Spec.legal t l1 ∧ legalOps Spec.step Spec.legal (runOps Spec.step t l1).1 l2 := by
    intro l1
    induction l1 with
    | nil => intro l2 t h; exact ⟨trivial, h⟩
    | cons o l1 ih => intro l2 t h; exact ⟨⟨h.1, (ih l2 _ h.2).1⟩, (ih l2 _ h.2).2⟩
  obtain ⟨h1, h2⟩ := hsplit pre _ _ h
  have r := (runOps_simulation_legal step Spec.step Spec.legal SRep (fun s t o r hl => rep_step s t o r hl)
    Sys.empty Spec.empty rep_empty pre h1).1
  rw [(rep_step _ _ _ r h2.1).2] at hy
  have hone : MapIn ((runOps Spec.step Spec.empty pre).1.step (.addMapping i start stop memif dest)).1 i start stop memif dest := by
    generalize (runOps Spec.step Spec.empty pre).1 = t at hy
    unfold Spec.step at hy ⊢
    dsimp only at hy ⊢
    cases hn : t.nodes i with
    | none => rw [hn] at hy; cases hy
    | some n =>
      cases hm : t.nodes memif with
      | none => rw [hn, hm] at hy; cases hy
      | some tn =>
        rw [hn, hm] at hy
        dsimp only at hy ⊢
        cases hk : n.kind with
        | obj o => rw [hk] at hy; cases hy
        | map ms =>
          rw [hk] at hy
          dsimp only at hy ⊢
          by_cases ha : acceptable n tn ms start stop dest = true
          · rw [if_pos ha]
            refine ⟨{ n with kind := .map (ms ++ [⟨start, stop, dest, memif⟩]) }, _, ?_, rfl, by simp⟩
            show upd t.nodes i _ i = _
            rw [upd, if_pos rfl]
          · rw [if_neg ha] at hy; cases hy
  rw [runOps_append]
  show MapIn (runOps Spec.step _ post).1 i start stop memif dest
  have r2 := (rep_step _ _ _ r h2.1).1
  obtain ⟨n, ms, m1, m2, m3⟩ := hone
  obtain ⟨n', k1, _, _, _, k2⟩ := runOps_keeps post _ (fun j hj => (r2.nodeLt j).1 hj) m1
  obtain ⟨l, k3⟩ := k2 ms m2
  exact ⟨n', _, k1, k3, List.mem_append_left _ m3⟩

/-- an access to a mapped range of a map is the access to the interface behind it, at the destination address -/
theorem C101_translate {ops s t} (h : Reach ops s t) {i start stop memif dest : Nat} (hm : MapIn t i start stop memif dest)
    (a k : Nat) (hk : 0 < k) (h1 : start ≤ a) (h2 : a + k ≤ stop)
    (hin : ∃ n, t.nodes i = some n ∧ a + k ≤ n.total) :
    (step s (.tryPeek i a k)).2 = (step s (.tryPeek memif (dest + (a - start)) k)).2 ∧
    ∀ q, q < k → t.loc i (a + q) = t.loc memif (dest + (a - start) + q) := by
  have r := h.rep
  obtain ⟨n, hn, ht⟩ := hin
  obtain ⟨n', ms, m1, m2, m3⟩ := hm
  obtain rfl : n' = n := by rw [m1] at hn; exact Option.some.inj hn
  have ok := r.cfg i n' m1
  have mo := ok.map ms m2 _ m3
  obtain ⟨tn, g1, _⟩ := mo.tgt
  obtain ⟨cn, c1, cr⟩ := r.node m1
  have hdis : ms.Pairwise (fun a b => a.stop ≤ b.start ∨ b.stop ≤ a.start) := by
    cases hk' : cn.kind with
    | obj o => rw [cr.obj o hk'] at m2; cases m2
    | map mp =>
      obtain ⟨e, _, _, tr, I⟩ := cr.map mp hk'
      rw [e] at m2; cases m2
      exact I.dis
  have hfind : ∀ x, start ≤ x → x < stop → ms.find? (hit x) = some ⟨start, stop, dest, memif⟩ := by
    intro x hx1 hx2
    clear mo ok m1 m2
    induction ms with
    | nil => cases m3
    | cons m ms ih =>
      rw [List.find?_cons]
      rcases List.mem_cons.1 m3 with e | m3'
      · subst e
        have : hit x ⟨start, stop, dest, memif⟩ = true := hit_iff.2 ⟨hx1, hx2⟩
        rw [this]
      · have hd := (List.pairwise_cons.1 hdis).1 _ m3'
        have : hit x m = false := by
          rw [Bool.eq_false_iff]
          intro hh
          have h3 := hit_iff.1 hh
          have hd' : m.stop ≤ start ∨ stop ≤ m.start := hd
          omega
        rw [this]
        exact ih m3' (List.pairwise_cons.1 hdis).2
  have hloc : ∀ q, q < k → t.loc i (a + q) = t.loc memif (dest + (a - start) + q) := by
    intro q hq
    rw [(walk_map r.cfg m1 m2 (by omega) (hfind (a + q) (by omega) (by omega))).1]
    show t.loc memif (dest + (a + q - start)) = _
    rw [show dest + (a + q - start) = dest + (a - start) + q by omega]
  refine ⟨?_, hloc⟩
  have hfits : dest + (stop - start) < wordSize := mo.fits
  have htop : stop < wordSize := mo.top
  have hiN : i < t.nNode := (r.nodeLt i).1 (by rw [m1]; simp)
  have hmN : memif < t.nNode := (r.nodeLt memif).1 (by rw [show t.nodes memif = some tn from g1]; simp)
  rw [step_peek r hiN ⟨hk, by omega⟩, step_peek r hmN ⟨hk, by omega⟩]
  have hp : t.tryPeek i a k = t.tryPeek memif (dest + (a - start)) k := by
    unfold Spec.tryPeek Spec.mapped Spec.load
    have e1 : (List.range k).all (fun j => (t.loc i (a + j)).isSome) =
        (List.range k).all (fun j => (t.loc memif (dest + (a - start) + j)).isSome) := by
      rw [Bool.eq_iff_iff, List.all_eq_true, List.all_eq_true]
      constructor
      · intro hh j hj; rw [← hloc j (List.mem_range.1 hj)]; exact hh j hj
      · intro hh j hj; rw [hloc j (List.mem_range.1 hj)]; exact hh j hj
    have e2 : (List.range k).map (fun j => t.byte i (a + j)) = (List.range k).map (fun j => t.byte memif (dest + (a - start) + j)) := by
      apply List.map_congr_left
      intro j hj
      unfold Spec.byte
      rw [hloc j (List.mem_range.1 hj)]
    rw [e1, e2]
  rw [hp]

example : ∃ s t, Reach demo s t ∧ MapIn t 2 32 48 1 8 ∧ (∃ n, t.nodes 2 = some n ∧ 40 + 8 ≤ n.total) := by
  refine ⟨_, _, ⟨demo_legal, rfl, rfl⟩, ?_, ?_⟩
  · exact C101_mapping_stays (demo.take 6) (demo.drop 7) 2 32 48 1 8 demo_legal (by decide +kernel)
  · exact ⟨_, rfl, by decide +kernel⟩

/-! ### C102 -/

/-- what the observers are told of a call, given its result -/
def told (t : Spec) : Op → Res → List Note
  | .tryRead i a _, .data d => ((t.trail i a).reverse.filter fun p => t.obsR p.1).map fun p => .read p.1 p.2 d
  | .read i a _, .data d => ((t.trail i a).reverse.filter fun p => t.obsR p.1).map fun p => .read p.1 p.2 d
  | .tryWrite i a bs, .yes =>
    ((t.trail i a).reverse.filter fun p => t.obsW p.1).map fun p => .write p.1 p.2 (t.load i a bs.length) bs
  | .write i a bs, .yes =>
    ((t.trail i a).reverse.filter fun p => t.obsW p.1).map fun p => .write p.1 p.2 (t.load i a bs.length) bs
  | _, _ => []

theorem store_notes (i : Nat) (bs : Bytes) : ∀ (t : Spec) (a : Nat), (t.store i a bs).notes = t.notes := by
  induction bs with
  | nil => intro t a; rfl
  | cons b bs ih =>
    intro t a
    rw [Spec.store, ih]
    unfold Spec.setByte; split <;> rfl

/-- observers of the interfaces an access passes are told of every successful read and write, the innermost first,
with the data read, or the bytes before and the bytes written; they are told of nothing else -/
theorem C102_notifications {ops s t} (h : Reach ops s t) (op : Op) (hl : t.legal op) :
    (step s op).1.notes = s.notes ++ told t op (step s op).2 := by
  have r := h.rep
  obtain ⟨r', e⟩ := rep_step s t op r hl
  rw [r'.notes, r.notes, e]
  cases op with
  | newObj _ _ _ _ => unfold Spec.step; dsimp only; split <;> exact (List.append_nil _).symm
  | newObjNode _ => unfold Spec.step; dsimp only; split <;> exact (List.append_nil _).symm
  | newMapNode _ _ => unfold Spec.step; dsimp only; split <;> exact (List.append_nil _).symm
  | addMapping _ _ _ _ _ =>
    unfold Spec.step; dsimp only; split
    · split
      · exact (List.append_nil _).symm
      · split <;> exact (List.append_nil _).symm
    · exact (List.append_nil _).symm
  | observe _ _ _ => exact (List.append_nil _).symm
  | tryRead i a k =>
    unfold Spec.step Spec.tryRead; dsimp only; split
    · rfl
    · exact (List.append_nil _).symm
  | read i a k =>
    unfold Spec.step Spec.tryRead; dsimp only; split
    · rfl
    · exact (List.append_nil _).symm
  | tryWrite i a bs =>
    unfold Spec.step Spec.tryWrite; dsimp only; split
    · rfl
    · exact (List.append_nil _).symm
  | write i a bs =>
    unfold Spec.step Spec.tryWrite; dsimp only; split
    · rfl
    · exact (List.append_nil _).symm
  | tryPeek _ _ _ => exact (List.append_nil _).symm
  | peek _ _ _ => exact (List.append_nil _).symm
  | tryPoke i a bs =>
    unfold Spec.step Spec.tryPoke; dsimp only
    split
    · exact (store_notes _ _ _ _).trans (List.append_nil _).symm
    · exact (List.append_nil _).symm
  | poke i a bs =>
    unfold Spec.step Spec.tryPoke; dsimp only
    split
    · exact (store_notes _ _ _ _).trans (List.append_nil _).symm
    · exact (List.append_nil _).symm
  | getDMI i a k =>
    have e : (t.getDMI i a k).1.notes = t.notes := by
      unfold Spec.getDMI
      split
      · rfl
      · split
        · dsimp only; split <;> rfl
        · rfl
    exact e.trans (List.append_nil _).symm
  | dmiRead d a k => unfold Spec.step; dsimp only; split <;> exact (List.append_nil _).symm
  | dmiWrite d a bs =>
    unfold Spec.step; dsimp only; split
    · exact (List.append_nil _).symm
    · split <;> exact (List.append_nil _).symm
  | invalidate _ => exact (List.append_nil _).symm

/-- a write through both maps is told to the observers of the memory and of the first map -/
example : ∃ s t, Reach demo s t ∧ told t (.write 2 34 [1, 2]) (step s (.write 2 34 [1, 2])).2 =
    [.write 0 6 [0xab, 0xab] [1, 2], .write 1 10 [0xab, 0xab] [1, 2]] :=
  ⟨_, _, ⟨demo_legal, rfl, rfl⟩, by decide +kernel⟩

/-- a notification tells what the interface of the observer holds -/
def truthful (s : Sys) (t : Spec) : Note → Prop
  | .read j b d => (step s (.tryPeek j b d.length)).2 = .data d ∧ t.obsR j = true
  | .write j b d bs => d.length = bs.length ∧ (step s (.tryPeek j b bs.length)).2 = .data d ∧ t.obsW j = true

/-- the bytes before a write, as told, are those a peek at the interface of the observer gives; the bytes read
likewise -/
theorem C102_note_data {ops s t} (h : Reach ops s t) (op : Op) (hl : t.legal op) (x : Note)
    (hx : x ∈ told t op (step s op).2) :
    truthful s t x := by
  have r := h.rep
  -- every interface on the way denotes the same bytes
  have main : ∀ (i : Nat) (n : SNode) (a k : Nat), t.nodes i = some n → 0 < k → inBlock n.bs a k → sized a k →
      (t.loc i a).isSome = true → ∀ p ∈ t.trail i a, p.1 < t.nNode ∧ sized p.2 k ∧ t.mapped p.1 p.2 k = true ∧
        t.load p.1 p.2 k = t.load i a k := by
    intro i
    induction i using Nat.strongRecOn with
    | ind i ih =>
      intro n a k hn hk hb hs hlo p hp
      have hself : i < t.nNode ∧ sized a k ∧ t.mapped i a k = true ∧ t.load i a k = t.load i a k :=
        ⟨(r.nodeLt i).1 (by rw [hn]; simp), hs, by rw [mapped_block r.cfg hn hb hk]; exact hlo, rfl⟩
      by_cases ha : a < n.total
      · cases hkd : n.kind with
        | obj o =>
          rw [(walk_obj r.cfg hn hkd ha).2] at hp
          rw [List.mem_singleton.1 hp]; exact hself
        | map ms =>
          cases hf : ms.find? (hit a) with
          | none =>
            rw [(walk_hole r.cfg hn hkd hf).2] at hp
            rw [List.mem_singleton.1 hp]; exact hself
          | some m =>
            obtain ⟨e1, e2⟩ := walk_map r.cfg hn hkd ha hf
            rw [e2] at hp
            rcases List.mem_cons.1 hp with rfl | hp
            · exact hself
            · obtain ⟨g1, _, tn, g2, g3, g4, g5⟩ := map_next r.cfg hn hkd hf hb hk
              have := ih m.memif g1 tn _ k g2 hk g4 g5 (by rw [← e1]; exact hlo) p hp
              rw [load_map r.cfg hn hkd ha hf hb]
              exact this
      · rw [(walk_out r.cfg hn (a := a) (by omega)).2] at hp
        rw [List.mem_singleton.1 hp]; exact hself
  have blk : ∀ {i a k : Nat}, i < t.nNode → sized a k → t.crosses i a k = false → t.mapped i a k = true →
      ∀ p ∈ t.trail i a, p.1 < t.nNode ∧ sized p.2 k ∧ t.mapped p.1 p.2 k = true ∧ t.load p.1 p.2 k = t.load i a k := by
    intro i a k hi hs hcr hm
    obtain ⟨n, hn⟩ := Option.ne_none_iff_exists'.1 ((r.nodeLt i).2 hi)
    have hib : inBlock n.bs a k := by
      by_cases hh : inBlock n.bs a k
      · exact hh
      · rw [(crosses_eq r.cfg hn hs.1).2 hh] at hcr; cases hcr
    refine main i n a k hn hs.1 hib hs ?_
    rw [mapped_block r.cfg hn hib hs.1] at hm; exact hm
  have rd : ∀ {i a k : Nat}, i < t.nNode → sized a k → ∀ {d}, (t.tryRead i a k).2 = some d →
      t.crosses i a k = false ∧ t.mapped i a k = true ∧ d = t.load i a k := by
    intro i a k _ _ d he
    unfold Spec.tryRead at he
    dsimp only at he
    by_cases hc : t.crosses i a k = false ∧ t.mapped i a k = true
    · rw [if_pos hc] at he; exact ⟨hc.1, hc.2, (Option.some.inj he).symm⟩
    · rw [if_neg hc] at he; cases he
  have wr : ∀ {i a : Nat} {bs : Bytes}, (t.tryWrite i a bs).2 = true →
      t.crosses i a bs.length = false ∧ t.mapped i a bs.length = true := by
    intro i a bs he
    unfold Spec.tryWrite at he
    dsimp only at he
    by_cases hc : t.crosses i a bs.length = false ∧ t.mapped i a bs.length = true
    · exact hc
    · rw [if_neg hc] at he; cases he
  have pk : ∀ {j b k : Nat}, j < t.nNode → sized b k → t.mapped j b k = true →
      (step s (.tryPeek j b k)).2 = .data (t.load j b k) := by
    intro j b k hj hs hm
    rw [step_peek r hj hs, Spec.tryPeek, if_pos hm]
  have len : ∀ i a k, (t.load i a k).length = k := by intro i a k; simp [Spec.load]
  have fin_r : ∀ {i a k : Nat} {d : Bytes}, i < t.nNode → sized a k → (t.tryRead i a k).2 = some d →
      x ∈ ((t.trail i a).reverse.filter fun p => t.obsR p.1).map (fun p => Note.read p.1 p.2 d) →
      truthful s t x := by
    intro i a k d hi hs hd hx
    obtain ⟨c1, c2, c3⟩ := rd hi hs hd
    obtain ⟨p, hp, rfl⟩ := List.mem_map.1 hx
    have hp' := List.mem_filter.1 hp
    obtain ⟨q1, q2, q3, q4⟩ := blk hi hs c1 c2 p (List.mem_reverse.1 hp'.1)
    show _ ∧ _
    rw [c3, len, pk q1 q2 q3, q4]
    exact ⟨rfl, hp'.2⟩
  have fin_w : ∀ {i a : Nat} {bs : Bytes}, i < t.nNode → sized a bs.length → (t.tryWrite i a bs).2 = true →
      x ∈ ((t.trail i a).reverse.filter fun p => t.obsW p.1).map (fun p => Note.write p.1 p.2 (t.load i a bs.length) bs) →
      truthful s t x := by
    intro i a bs hi hs hd hx
    obtain ⟨c1, c2⟩ := wr hd
    obtain ⟨p, hp, rfl⟩ := List.mem_map.1 hx
    have hp' := List.mem_filter.1 hp
    obtain ⟨q1, q2, q3, q4⟩ := blk hi hs c1 c2 p (List.mem_reverse.1 hp'.1)
    show _ ∧ _ ∧ _
    rw [len, pk q1 q2 q3, q4]
    exact ⟨rfl, rfl, hp'.2⟩
  rw [(rep_step s t op r hl).2] at hx
  cases op with
  | tryRead i a k =>
    have e : (t.step (.tryRead i a k)).2 = match (t.tryRead i a k).2 with | none => .no | some d => .data d := rfl
    rw [e] at hx
    cases hd : (t.tryRead i a k).2 with
    | none => rw [hd] at hx; cases hx
    | some d => rw [hd] at hx; exact fin_r hl.1 hl.2 hd hx
  | read i a k =>
    have e : (t.step (.read i a k)).2 = match (t.tryRead i a k).2 with | none => .err (t.accessError i a k) | some d => .data d := rfl
    rw [e] at hx
    cases hd : (t.tryRead i a k).2 with
    | none => rw [hd] at hx; cases hx
    | some d => rw [hd] at hx; exact fin_r hl.1 hl.2 hd hx
  | tryWrite i a bs =>
    have e : (t.step (.tryWrite i a bs)).2 = if (t.tryWrite i a bs).2 then .yes else .no := rfl
    rw [e] at hx
    cases hd : (t.tryWrite i a bs).2 with
    | false => rw [hd] at hx; cases hx
    | true => rw [hd] at hx; exact fin_w hl.1 hl.2 hd hx
  | write i a bs =>
    have e : (t.step (.write i a bs)).2 = if (t.tryWrite i a bs).2 then .yes else .err (t.accessError i a bs.length) := rfl
    rw [e] at hx
    cases hd : (t.tryWrite i a bs).2 with
    | false => rw [hd] at hx; cases hx
    | true => rw [hd] at hx; exact fin_w hl.1 hl.2 hd hx
  | _ => cases hx

example : ∃ s t, Reach demo s t ∧ t.legal (.read 2 40 4) ∧
    Note.read 1 16 [0xab, 0xab, 0xab, 0xab] ∈ told t (.read 2 40 4) (step s (.read 2 40 4)).2 :=
  ⟨_, _, ⟨demo_legal, rfl, rfl⟩, by decide +kernel, by decide +kernel⟩

/-- observation is invisible: equal but for observers, notifications and counters -/
def Same (t t' : Spec) : Prop :=
  t.nObj = t'.nObj ∧ t.nNode = t'.nNode ∧ t.objs = t'.objs ∧ t.nodes = t'.nodes ∧ t.dmis = t'.dmis

def isObserve : Op → Bool
  | .observe .. => true
  | _ => false

theorem store_same (i : Nat) (bs : Bytes) : ∀ {t t' : Spec} (a : Nat), Same t t' → Same (t.store i a bs) (t'.store i a bs) := by
  induction bs with
  | nil => intro t t' a h; exact h
  | cons b bs ih =>
    intro t t' a h
    apply ih
    obtain ⟨h1, h2, h3, h4, h5⟩ := h
    unfold Spec.setByte
    rw [loc_congr h4]
    split
    · exact ⟨h1, h2, h3, h4, h5⟩
    · exact ⟨h1, h2, by dsimp only; rw [h3], h4, h5⟩

theorem step_same {t t' : Spec} (h : Same t t') (op : Op) (ho : isObserve op = false) :
    Same (t.step op).1 (t'.step op).1 ∧ (t.step op).2 = (t'.step op).2 := by
  obtain ⟨h1, h2, h3, h4, h5⟩ := h
  have h : Same t t' := ⟨h1, h2, h3, h4, h5⟩
  have hloc : ∀ i a, t.loc i a = t'.loc i a := fun i a => loc_congr h4 i a
  have htr : ∀ i a, t.trail i a = t'.trail i a := fun i a => by unfold Spec.trail; rw [h4]
  have hla : ∀ i a, t.last i a = t'.last i a := fun i a => by unfold Spec.last; rw [htr]
  have hcr : ∀ i a k, t.crosses i a k = t'.crosses i a k := fun i a k => by unfold Spec.crosses; rw [h4]
  have hma : ∀ i a k, t.mapped i a k = t'.mapped i a k := fun i a k => by unfold Spec.mapped; simp only [hloc]
  have hby : ∀ i a, t.byte i a = t'.byte i a := fun i a => by unfold Spec.byte; rw [hloc, h3]
  have hld : ∀ i a k, t.load i a k = t'.load i a k := fun i a k => by unfold Spec.load; simp only [hby]
  have hre : ∀ i a k, t.reach i a k = t'.reach i a k := fun i a k => by unfold Spec.reach; simp only [hloc]
  have hwi : ∀ i a k, t.within i a k = t'.within i a k := fun i a k => by unfold Spec.within; rw [h4]
  have hae : ∀ i a k, t.accessError i a k = t'.accessError i a k := fun i a k => by
    unfold Spec.accessError; simp only [hcr, hwi, h4]
  have hde : ∀ i a k, t.debugError i a k = t'.debugError i a k := fun i a k => by unfold Spec.debugError; rw [hwi]
  have hrd : ∀ i a k, Same (t.tryRead i a k).1 (t'.tryRead i a k).1 ∧ (t.tryRead i a k).2 = (t'.tryRead i a k).2 := by
    intro i a k
    unfold Spec.tryRead
    rw [hcr, hma]
    dsimp only
    split
    · exact ⟨⟨h1, h2, h3, h4, h5⟩, by dsimp only; rw [hld]⟩
    · exact ⟨⟨h1, h2, h3, h4, h5⟩, rfl⟩
  have hwr : ∀ i a bs, Same (t.tryWrite i a bs).1 (t'.tryWrite i a bs).1 ∧ (t.tryWrite i a bs).2 = (t'.tryWrite i a bs).2 := by
    intro i a bs
    unfold Spec.tryWrite
    dsimp only
    rw [hcr, hma]
    split
    · have hs : Same { t with writes := bump t.writes (t.counted i a bs.length) }
        { t' with writes := bump t'.writes (t'.counted i a bs.length) } := ⟨h1, h2, h3, h4, h5⟩
      obtain ⟨g1, g2, g3, g4, g5⟩ := store_same i bs a hs
      exact ⟨⟨g1, g2, g3, g4, g5⟩, rfl⟩
    · exact ⟨⟨h1, h2, h3, h4, h5⟩, rfl⟩
  have hpo : ∀ i a bs, Same (t.tryPoke i a bs).1 (t'.tryPoke i a bs).1 ∧ (t.tryPoke i a bs).2 = (t'.tryPoke i a bs).2 := by
    intro i a bs
    unfold Spec.tryPoke
    rw [hwi, hre]
    split
    · exact ⟨store_same _ _ _ h, rfl⟩
    · exact ⟨h, rfl⟩
  have hpe : ∀ i a k, t.tryPeek i a k = t'.tryPeek i a k := fun i a k => by unfold Spec.tryPeek; rw [hma, hld]
  cases op with
  | newObj _ _ _ _ =>
    unfold Spec.step; dsimp only; split
    · exact ⟨⟨by dsimp only; rw [h1], h2, by dsimp only; rw [h1, h3], h4, h5⟩, by rw [h1]⟩
    · exact ⟨h, rfl⟩
  | newObjNode o =>
    unfold Spec.step; dsimp only; rw [h3]; split
    · exact ⟨h, rfl⟩
    · exact ⟨⟨h1, by dsimp only; rw [h2], rfl, by dsimp only; rw [h2, h4], h5⟩, by rw [h2]⟩
  | newMapNode _ _ =>
    unfold Spec.step; dsimp only; split
    · exact ⟨⟨h1, by dsimp only; rw [h2], h3, by dsimp only; rw [h2, h4], h5⟩, by rw [h2]⟩
    · exact ⟨h, rfl⟩
  | addMapping _ _ _ _ _ =>
    unfold Spec.step; dsimp only; rw [h4]; split
    · split
      · exact ⟨h, rfl⟩
      · split
        · exact ⟨⟨h1, h2, h3, rfl, h5⟩, rfl⟩
        · exact ⟨h, rfl⟩
    · exact ⟨h, rfl⟩
  | observe _ _ _ => cases ho
  | tryRead i a k => unfold Spec.step; dsimp only; rw [(hrd i a k).2]; exact ⟨(hrd i a k).1, rfl⟩
  | read i a k => unfold Spec.step; dsimp only; rw [(hrd i a k).2, hae]; exact ⟨(hrd i a k).1, rfl⟩
  | tryWrite i a bs => unfold Spec.step; dsimp only; rw [(hwr i a bs).2]; exact ⟨(hwr i a bs).1, rfl⟩
  | write i a bs => unfold Spec.step; dsimp only; rw [(hwr i a bs).2, hae]; exact ⟨(hwr i a bs).1, rfl⟩
  | tryPeek i a k => unfold Spec.step; dsimp only; rw [hpe]; exact ⟨h, rfl⟩
  | peek i a k => unfold Spec.step; dsimp only; rw [hpe, hde]; exact ⟨h, rfl⟩
  | tryPoke i a bs => unfold Spec.step; dsimp only; rw [(hpo i a bs).2]; exact ⟨(hpo i a bs).1, rfl⟩
  | poke i a bs => unfold Spec.step; dsimp only; rw [(hpo i a bs).2, hde]; exact ⟨(hpo i a bs).1, rfl⟩
  | getDMI i a k =>
    have e : Same (t.getDMI i a k).1 (t'.getDMI i a k).1 ∧ (t.getDMI i a k).2 = (t'.getDMI i a k).2 := by
      unfold Spec.getDMI
      rw [hcr, hloc, hla, h4, h5]
      split
      · exact ⟨h, rfl⟩
      · split
        · dsimp only
          split
          · exact ⟨h, rfl⟩
          · exact ⟨⟨h1, h2, h3, rfl, rfl⟩, rfl⟩
        · exact ⟨h, rfl⟩
    unfold Spec.step; dsimp only; rw [e.2]; exact ⟨e.1, rfl⟩
  | dmiRead d a k => unfold Spec.step; dsimp only; rw [h5, h3]; split <;> exact ⟨h, rfl⟩
  | dmiWrite d a bs =>
    unfold Spec.step; dsimp only; rw [h5, h3]; split
    · exact ⟨h, rfl⟩
    · split
      · exact ⟨⟨h1, h2, rfl, h4, rfl⟩, rfl⟩
      · exact ⟨h, rfl⟩
  | invalidate _ => exact ⟨⟨h1, h2, h3, h4, by unfold Spec.step; dsimp only; rw [h5]⟩, rfl⟩

theorem legal_same {t t' : Spec} (h : Same t t') (op : Op) (hl : t.legal op) : t'.legal op := by
  obtain ⟨h1, h2, h3, h4, h5⟩ := h
  have hloc : ∀ i a, t.loc i a = t'.loc i a := fun i a => loc_congr h4 i a
  cases op with
  | getDMI i a k =>
    obtain ⟨g1, g2, g3⟩ := hl
    exact ⟨by rw [← h2]; exact g1, g2, by rw [← hloc]; exact g3⟩
  | _ => unfold Spec.legal at hl ⊢; first | exact hl | (rw [← h2]; exact hl)

theorem run_same (ops : List Op) : ∀ {t t' : Spec}, Same t t' → legalOps Spec.step Spec.legal t ops →
    legalOps Spec.step Spec.legal t' (ops.filter fun o => !isObserve o) ∧
    Same (runOps Spec.step t ops).1 (runOps Spec.step t' (ops.filter fun o => !isObserve o)).1 := by
  induction ops with
  | nil => intro t t' h hl; exact ⟨trivial, h⟩
  | cons o ops ih =>
    intro t t' h hl
    cases ho : isObserve o with
    | true =>
      rw [List.filter_cons_of_neg (by simp [ho])]
      refine ih (t := (t.step o).1) ?_ hl.2
      cases o with
      | observe _ _ _ => exact h
      | _ => cases ho
    | false =>
      rw [List.filter_cons_of_pos (by simp [ho])]
      have g := step_same h o ho
      obtain ⟨e1, e2⟩ := ih g.1 hl.2
      exact ⟨⟨legal_same h o hl.1, e1⟩, e2⟩

/-- the results of all calls are the same as if no observer had ever been registered -/
theorem C102_transparent (ops : List Op) (op : Op) (h : legalOps Spec.step Spec.legal Spec.empty (ops ++ [op]))
    (ho : isObserve op = false) :
    (step (runOps step Sys.empty ops).1 op).2 =
      (step (runOps step Sys.empty (ops.filter fun o => !isObserve o)).1 op).2 := by
  have hsplit : ∀ (l1 : List Op) (t : Spec), legalOps Spec.step Spec.legal t (l1 ++ [op]) →
      legalOps Spec.step Spec.legal t l1 ∧ (runOps Spec.step t l1).1.legal op := by
    intro l1
    induction l1 with
    | nil => intro t h; exact ⟨trivial, h.1⟩
    | cons o l1 ih => intro t h; exact ⟨⟨h.1, (ih _ h.2).1⟩, (ih _ h.2).2⟩
  obtain ⟨h1, h2⟩ := hsplit ops _ h
  obtain ⟨g1, g2⟩ := run_same ops (t := Spec.empty) (t' := Spec.empty) ⟨rfl, rfl, rfl, rfl, rfl⟩ h1
  have r1 := (Reach.rep ⟨h1, rfl, rfl⟩)
  have r2 := (Reach.rep ⟨g1, rfl, rfl⟩)
  rw [(rep_step _ _ op r1 h2).2, (rep_step _ _ op r2 (legal_same g2 op h2)).2]
  exact (step_same g2 op ho).2

example : legalOps Spec.step Spec.legal Spec.empty (demo ++ [.write 2 34 [1, 2]] ++ [.read 1 18 2]) ∧
    (demo.filter fun o => !isObserve o).length + 2 = demo.length := by decide +kernel

/-- but for the counter of writes inside: a write that fails is not counted behind an observed interface -/
theorem C102_counter_violated :
    ∃ ops ops' : List Op, ops'.filter (fun o => !isObserve o) = ops ∧
      legalOps Spec.step Spec.legal Spec.empty ops' ∧
      (runOps step Sys.empty ops).1.writes 1 ≠ (runOps step Sys.empty ops').1.writes 1 :=
  ⟨[.newMapNode 4 8, .newMapNode 4 16, .newMapNode 4 32, .addMapping 2 0 16 1 0, .tryWrite 2 0 [1]],
   [.newMapNode 4 8, .newMapNode 4 16, .newMapNode 4 32, .addMapping 2 0 16 1 0, .observe 2 false true, .tryWrite 2 0 [1]],
   by decide, by decide +kernel, by decide +kernel⟩

/-! ### C103 -/

/-- calls that are not meant to write -/
def readsOnly : Op → Bool
  | .observe .. | .tryRead .. | .read .. | .tryPeek .. | .peek .. | .getDMI .. | .dmiRead .. | .invalidate .. => true
  | _ => false

def isWrite : Op → Bool
  | .tryWrite .. | .write .. | .dmiWrite .. => true
  | _ => false

theorem seen_same {s t} (r : SRep s t) {op : Op} (hl : t.legal op) (hd : (t.step op).1.nodes = t.nodes)
    (ho : (t.step op).1.objs = t.objs) (hN : (t.step op).1.nNode = t.nNode) {j b k : Nat} (hj : j < t.nNode) (hs : sized b k) :
    (step (step s op).1 (.tryPeek j b k)).2 = (step s (.tryPeek j b k)).2 := by
  have r' := (rep_step s t op r hl).1
  rw [step_peek r' (by rw [hN]; exact hj) hs, step_peek r hj hs]
  have hloc : ∀ i a, (t.step op).1.loc i a = t.loc i a := fun i a => loc_congr hd i a
  have e : (t.step op).1.tryPeek j b k = t.tryPeek j b k := by
    unfold Spec.tryPeek Spec.mapped Spec.load Spec.byte
    simp only [hloc, ho]
  rw [e]

/-- reads, peeks and refused writes change nothing that can be peeked -/
theorem C103_unchanged {ops s t} (h : Reach ops s t) (op : Op) (hl : t.legal op)
    (hq : readsOnly op = true ∨ (isWrite op = true ∧ (step s op).2 ≠ .yes)) (j b k : Nat) (hj : j < t.nNode) (hs : sized b k) :
    (step (step s op).1 (.tryPeek j b k)).2 = (step s (.tryPeek j b k)).2 := by
  have r := h.rep
  have hnb : isBuild op = false := by
    rcases hq with h | ⟨h, _⟩ <;> cases op <;> first | rfl | cases h
  obtain ⟨e1, e2⟩ := step_nodes (t := t) hnb
  refine seen_same r hl e1 ?_ e2 hj hs
  rw [(rep_step s t op r hl).2] at hq
  cases op with
  | observe _ _ _ => rfl
  | tryRead i a k => show (t.tryRead i a k).1.objs = _; unfold Spec.tryRead; dsimp only; split <;> rfl
  | read i a k => show (t.tryRead i a k).1.objs = _; unfold Spec.tryRead; dsimp only; split <;> rfl
  | tryPeek _ _ _ => rfl
  | peek _ _ _ => rfl
  | getDMI i a k =>
    show (t.getDMI i a k).1.objs = _
    unfold Spec.getDMI
    split
    · rfl
    · split
      · dsimp only; split <;> rfl
      · rfl
  | dmiRead d a k => unfold Spec.step; dsimp only; split <;> rfl
  | invalidate _ => rfl
  | tryWrite i a bs =>
    rcases hq with h | ⟨_, h⟩
    · cases h
    · have e : (t.step (.tryWrite i a bs)).2 = if (t.tryWrite i a bs).2 then .yes else .no := rfl
      rw [e] at h
      show (t.tryWrite i a bs).1.objs = _
      unfold Spec.tryWrite at h ⊢
      dsimp only at h ⊢
      split
      · rename_i hc; rw [if_pos hc] at h; exact absurd rfl h
      · rfl
  | write i a bs =>
    rcases hq with h | ⟨_, h⟩
    · cases h
    · have e : (t.step (.write i a bs)).2 = if (t.tryWrite i a bs).2 then .yes else .err (t.accessError i a bs.length) := rfl
      rw [e] at h
      show (t.tryWrite i a bs).1.objs = _
      unfold Spec.tryWrite at h ⊢
      dsimp only at h ⊢
      split
      · rename_i hc; rw [if_pos hc] at h; exact absurd rfl h
      · rfl
  | dmiWrite d a bs =>
    rcases hq with h | ⟨_, h⟩
    · cases h
    · unfold Spec.step at h ⊢
      dsimp only at h ⊢
      split
      · rfl
      · rename_i x hx
        rw [hx] at h
        dsimp only at h
        split
        · rename_i hc; rw [if_pos hc] at h; exact absurd rfl h
        · rfl
  | _ => rcases hq with h | ⟨h, _⟩ <;> cases h

/-- a write refused because it crosses a block, and one because nothing is mapped there -/
example : ∃ s t, Reach demo s t ∧ (step s (.tryWrite 1 11 [1, 2])).2 = .no ∧ (step s (.write 2 1 [1])).2 = .err .noMapping :=
  ⟨_, _, ⟨demo_legal, rfl, rfl⟩, by decide +kernel, by decide +kernel⟩

/-- a poke that fails can leave part of its bytes written, although its documentation says that the memory is then
unchanged -/
theorem C103_poke_violated : ∃ ops s t, Reach ops s t ∧ t.legal (.tryPoke 1 12 [1, 2, 3, 4, 5, 6]) ∧
    (step s (.tryPoke 1 12 [1, 2, 3, 4, 5, 6])).2 = .no ∧
    (step (step s (.tryPoke 1 12 [1, 2, 3, 4, 5, 6])).1 (.tryPeek 1 12 4)).2 = .data [1, 2, 3, 4] ∧
    (step s (.tryPeek 1 12 4)).2 = .data [0xab, 0xab, 0xab, 0xab] :=
  ⟨demo.take 4, _, _, ⟨by decide +kernel, rfl, rfl⟩, by decide +kernel, by decide +kernel, by decide +kernel, by decide +kernel⟩

/-- a poke that fails changes nothing, or writes exactly its bytes before the first address without a byte; the claim
is that it changes nothing -/
theorem C103_poke_partial {ops s t} (h : Reach ops s t) (i a : Nat) (bs : Bytes) (hi : i < t.nNode) (hb : sized a bs.length)
    (hn : (step s (.tryPoke i a bs)).2 = .no) (j b : Nat) (hj : j < t.nNode) (hs : sized b 1) :
    (step (step s (.tryPoke i a bs)).1 (.tryPeek j b 1)).2 = (step s (.tryPeek j b 1)).2 ∨
    ∃ p q : Nat, ∃ v : UInt8, p < q ∧ q < bs.length ∧ (∀ p', p' < q → (t.loc i (a + p')).isSome = true) ∧
      t.loc i (a + q) = none ∧ bs[p]? = some v ∧ t.loc j b = t.loc i (a + p) ∧
      (step (step s (.tryPoke i a bs)).1 (.tryPeek j b 1)).2 = .data [v] := by
  have r := h.rep
  have hl : t.legal (.tryPoke i a bs) := ⟨hi, hb⟩
  obtain ⟨n, hnd⟩ := Option.ne_none_iff_exists'.1 ((r.nodeLt i).2 hi)
  have he : (t.step (.tryPoke i a bs)).2 = if (t.tryPoke i a bs).2 then .yes else .no := rfl
  rw [(rep_step s t _ r hl).2, he] at hn
  by_cases hw : t.within i a bs.length = true
  · have h2 : (t.tryPoke i a bs).2 = false := by
      cases hh : (t.tryPoke i a bs).2 with
      | false => rfl
      | true => rw [hh] at hn; cases hn
    have e : (t.step (.tryPoke i a bs)).1 = t.store i a (bs.take (t.reach i a bs.length)) := by
      show (t.tryPoke i a bs).1 = _
      unfold Spec.tryPoke; rw [if_pos hw]
    have hne : t.reach i a bs.length ≠ bs.length := by
      unfold Spec.tryPoke at h2; rw [if_pos hw] at h2
      simpa using h2
    have hle : t.reach i a bs.length ≤ bs.length := by
      unfold Spec.reach
      have := (List.takeWhile_sublist (l := List.range bs.length) fun j => (t.loc i (a + j)).isSome).length_le
      simpa using this
    have hpre : ∀ k p', p' < t.reach i a k → (t.loc i (a + p')).isSome = true := by
      intro k p' hp
      unfold Spec.reach at hp
      have h4 := List.all_takeWhile (p := fun j => (t.loc i (a + j)).isSome) (l := List.range k)
      have h5 : ((List.range k).takeWhile fun j => (t.loc i (a + j)).isSome)[p'] = p' := by
        have h6 := (List.takeWhile_prefix (l := List.range k) fun j => (t.loc i (a + j)).isSome).getElem hp
        rw [h6]; simp
      have h7 := (List.all_eq_true.1 h4) _ (List.getElem_mem hp)
      rw [h5] at h7
      exact h7
    have hend : t.reach i a bs.length < bs.length → t.loc i (a + t.reach i a bs.length) = none := by
      intro hlt
      cases hlo : t.loc i (a + t.reach i a bs.length) with
      | none => rfl
      | some p =>
        exfalso
        have hall : ∀ q, q < t.reach i a bs.length + 1 → (t.loc i (a + q)).isSome = true := by
          intro q hq
          by_cases e : q = t.reach i a bs.length
          · rw [e, hlo]; rfl
          · exact hpre bs.length q (by omega)
        have hsp : List.range bs.length = List.range (t.reach i a bs.length + 1) ++
            (List.range (bs.length - (t.reach i a bs.length + 1))).map (t.reach i a bs.length + 1 + ·) := by
          rw [← List.range_add]; congr 1; omega
        have hlen : t.reach i a bs.length + 1 ≤ t.reach i a bs.length := by
          conv => rhs; unfold Spec.reach
          rw [hsp, List.takeWhile_append_of_pos (by
            intro q hq; exact hall q (List.mem_range.1 hq))]
          simp
        omega
    have hlen : (bs.take (t.reach i a bs.length)).length = t.reach i a bs.length := by rw [List.length_take]; omega
    obtain ⟨g1, g2⟩ := seen_store r hl (bs := bs.take (t.reach i a bs.length)) hnd (by rw [e]) (by rw [e])
      (by rw [e]; exact store_nNode _ _ _ _) hj hs
    rw [hlen] at g1 g2
    by_cases hex : ∃ p, p < t.reach i a bs.length ∧ t.loc j b = t.loc i (a + p)
    · -- the last such position
      have hlast : ∃ p, (p < t.reach i a bs.length ∧ t.loc j b = t.loc i (a + p)) ∧
          ∀ p', p < p' → p' < t.reach i a bs.length → t.loc i (a + p') ≠ t.loc i (a + p) := by
        generalize t.reach i a bs.length = q at hex
        clear g1 g2
        induction q with
        | zero => obtain ⟨p, hp, _⟩ := hex; omega
        | succ q ih =>
          by_cases hq : t.loc j b = t.loc i (a + q)
          · exact ⟨q, ⟨by omega, hq⟩, fun p' h1 h2 => by omega⟩
          · obtain ⟨p, hp, hp2⟩ := hex
            have hpq : p ≠ q := by intro e; rw [e] at hp2; exact hq hp2
            obtain ⟨p1, ⟨h3, h4⟩, h5⟩ := ih ⟨p, by omega, hp2⟩
            refine ⟨p1, ⟨by omega, h4⟩, fun p' h6 h7 => ?_⟩
            by_cases e : p' = q
            · rw [e, ← h4]; exact fun e => hq e.symm
            · exact h5 p' h6 (by omega)
      obtain ⟨p, ⟨p1, p2⟩, p3⟩ := hlast
      right
      have hv : bs[p]? = some bs[p] := List.getElem?_eq_getElem (by omega)
      refine ⟨p, t.reach i a bs.length, bs[p], p1, by omega, hpre _, hend (by omega), hv, p2, ?_⟩
      exact g2 p bs[p] (by rw [List.getElem?_take_of_lt p1]; exact hv) p2 (by rw [p2]; exact hpre _ p p1) p3
    · left
      exact g1 (fun p hp e => hex ⟨p, hp, e.1⟩)
  · left
    have e : (t.step (.tryPoke i a bs)).1 = t := by
      show (t.tryPoke i a bs).1 = _
      unfold Spec.tryPoke; rw [if_neg hw]
    exact seen_same r hl (by rw [e]) (by rw [e]) (by rw [e]) hj hs

example : ∃ s t, Reach (demo.take 4) s t ∧ (step s (.tryPoke 1 12 [1, 2, 3, 4, 5, 6])).2 = .no :=
  ⟨_, _, ⟨by decide +kernel, rfl, rfl⟩, by decide +kernel⟩

/-! ### C104 -/

theorem Reach.dmi {ops s t} (h : Reach ops s t) : ∀ x ∈ t.dmis, DmiNode t x := by
  obtain ⟨h1, rfl, rfl⟩ := h
  exact runOps_dmi ops _ _ rep_empty (by intro x hx; cases hx) h1

def objByte (t : Spec) (o y : Nat) : UInt8 :=
  match t.objs o with
  | none => 0
  | some m => m.mem y

theorem step_dmiRead {t : Spec} {d : Nat} {x : Dmi} (h : t.dmis[d]? = some x) (a k : Nat) :
    (t.step (.dmiRead d a k)).2 = if x.covers a k then .data ((List.range k).map fun j => objByte t x.obj (a + j)) else .no := by
  unfold Spec.step
  simp only [h]
  rfl

theorem step_dmiWrite {t : Spec} {d : Nat} {x : Dmi} (h : t.dmis[d]? = some x) (a : Nat) (bs : Bytes) :
    t.step (.dmiWrite d a bs) = if x.covers a bs.length then
        ({ t with objs := upd t.objs x.obj ((t.objs x.obj).map fun m => m.store a bs) }, .yes) else (t, .no) := by
  unfold Spec.step
  simp only [h]

theorem byte_objByte {t : Spec} {i a o y : Nat} (h : t.loc i a = some (o, y)) : t.byte i a = objByte t o y := by
  unfold Spec.byte
  rw [h]; rfl

/-- a direct interface obtained at an address covers the bytes the address denotes: while it is valid, reading it
at the device address of the block gives what a peek at the address gives -/
theorem C104_obtained {ops s t} (h : Reach ops s t) (i a k : Nat) (hl : t.legal (.getDMI i a k)) :
    (t.crosses i a k = true → (step s (.getDMI i a k)).2 = .null) ∧
    (t.crosses i a k = false → ∃ (d : Nat) (x : Dmi) (o y : Nat), (step s (.getDMI i a k)).2 = .id d ∧
      (step s (.getDMI i a k)).1.dmis[d]? = some x ∧ t.loc i a = some (o, y) ∧ x.obj = o ∧ x.start ≤ y ∧
      y + k ≤ x.start + x.size ∧
      (x.valid = true → (step (step s (.getDMI i a k)).1 (.dmiRead d y k)).2 = (step s (.tryPeek i a k)).2) ∧
      (x.valid = false → (step (step s (.getDMI i a k)).1 (.dmiRead d y k)).2 = .no)) := by
  have r := h.rep
  obtain ⟨r', e⟩ := rep_step s t _ r hl
  have he : (t.step (.getDMI i a k)).2 = match (t.getDMI i a k).2 with | none => .null | some h => .id h := rfl
  constructor
  · intro hc
    rw [e, he, Spec.getDMI, if_pos hc]
  · intro hc
    obtain ⟨hi, hs, hlo⟩ := hl
    obtain ⟨n, hn⟩ := Option.ne_none_iff_exists'.1 ((r.nodeLt i).2 hi)
    cases hl' : t.loc i a with
    | none => rw [hl'] at hlo; cases hlo
    | some p =>
      obtain ⟨o, y⟩ := p
      obtain ⟨g0, m, g1, g2, g3, g4⟩ := last_obj r.cfg i n a o y hn hl'
      have hm0 := bs_pos (r.cfg _ _ g1).pow
      have hib : inBlock n.bs a k := by
        by_cases hh : inBlock n.bs a k
        · exact hh
        · rw [(crosses_eq r.cfg hn hs.1).2 hh] at hc; cases hc
      obtain ⟨b1, ⟨mo, b2, b3, b4, b5⟩, b6, b7⟩ := loc_block r.cfg i n a o y hn hl'
      have hyk : y / m.bs * m.bs ≤ y ∧ y + k ≤ y / m.bs * m.bs + m.bs := by
        rw [g3]
        rw [g3] at hm0
        have e1 := Nat.div_add_mod y n.bs
        rw [Nat.mul_comm] at e1
        unfold inBlock at hib
        omega
      -- the direct interface
      have hx : ∃ (d : Nat) (x : Dmi), (t.getDMI i a k).2 = some d ∧ (t.getDMI i a k).1.dmis[d]? = some x ∧ x.obj = o ∧
          x.start = y / m.bs * m.bs ∧ x.size = m.bs ∧ (t.getDMI i a k).1.objs = t.objs := by
        unfold Spec.getDMI
        rw [if_neg (by rw [hc]; simp), hl', g1]
        dsimp only
        cases hf : t.dmis.findIdx? (fun y_1 => y_1.node == (t.last i a).1 && y_1.start == y / m.bs * m.bs) with
        | some d =>
          obtain ⟨f1, f2, _⟩ := List.findIdx?_eq_some_iff_getElem.1 hf
          simp only [Bool.and_eq_true, beq_iff_eq] at f2
          obtain ⟨nx, q1, q2, q3, q4, q5⟩ := h.dmi _ (List.getElem_mem f1)
          rw [f2.1, g1] at q1
          cases q1
          refine ⟨d, t.dmis[d], rfl, List.getElem?_eq_getElem f1, ?_, f2.2, q3.symm, rfl⟩
          rw [g2] at q2; cases q2; rfl
        | none =>
          refine ⟨t.dmis.length, ⟨(t.last i a).1, o, y / m.bs * m.bs, m.bs, true⟩, rfl, by simp, rfl, rfl, rfl, rfl⟩
      obtain ⟨d, x, x1, x2, x3, x4, x5, x6⟩ := hx
      have x2' : (t.step (.getDMI i a k)).1.dmis[d]? = some x := x2
      have hsy : sized y k := by
        have e2 := (rep_step s t (.getDMI i a k) r ⟨hi, hs, hlo⟩).1
        have hd := e2.dmi x (List.mem_of_getElem? x2')
        obtain ⟨mm, d1, d2, d3, d4, d5⟩ := hd
        rcases e2.objs x.obj with ⟨z, _⟩ | ⟨mm', ms, z1, z2, z3, _⟩
        · rw [z] at d1; cases d1
        · rw [z1] at d1; cases d1
          have := (dmi_line z3 d2 d3 d4).2.2.1
          exact ⟨hs.1, by omega⟩
      have hrd := (rep_step _ _ (.dmiRead d y k) r' hsy).2
      have x6' : (t.step (.getDMI i a k)).1.objs = t.objs := x6
      have hob : ∀ o y, objByte (t.step (.getDMI i a k)).1 o y = objByte t o y := by
        intro o y; unfold objByte; rw [x6']
      have hrd' := step_dmiRead x2' y k
      refine ⟨d, x, o, y, by rw [e, he, x1], by rw [r'.dmis]; exact x2', rfl, x3, by omega, by omega, ?_, ?_⟩
      · intro hv
        have hcov : x.covers y k = true := by
          unfold Dmi.covers
          rw [hv]
          simp only [Bool.true_and, Bool.and_eq_true, decide_eq_true_eq]
          omega
        rw [hrd, hrd', if_pos hcov, step_peek r hi hs, Spec.tryPeek, if_pos (by
          rw [mapped_block r.cfg hn hib hs.1]; exact hlo)]
        dsimp only
        congr 1
        unfold Spec.load
        apply List.map_congr_left
        intro j hj
        rw [byte_objByte (loc_add r.cfg hn hib (List.mem_range.1 hj) hl'), hob, x3]
      · intro hv
        have hcov : x.covers y k = false := by unfold Dmi.covers; rw [hv]; rfl
        rw [hrd, hrd', if_neg (by rw [hcov]; simp)]

/-- through two maps -/
example : ∃ s t, Reach demo s t ∧ t.legal (.getDMI 2 41 2) ∧ t.crosses 2 41 2 = false ∧ t.loc 2 41 = some (0, 5) :=
  ⟨_, _, ⟨demo_legal, rfl, rfl⟩, by decide +kernel, by decide +kernel, by decide +kernel⟩

/-- a write through a direct interface is seen at every address of every interface that denotes a byte written, and
nowhere else -/
theorem C104_write {ops s t} (h : Reach ops s t) (d a : Nat) (bs : Bytes) (hb : sized a bs.length)
    (hy : (step s (.dmiWrite d a bs)).2 = .yes) :
    ∃ x : Dmi, s.dmis[d]? = some x ∧ x.valid = true ∧ ∀ j b, j < t.nNode → sized b 1 →
    ((∀ p, p < bs.length → t.loc j b ≠ some (x.obj, a + p)) →
      (step (step s (.dmiWrite d a bs)).1 (.tryPeek j b 1)).2 = (step s (.tryPeek j b 1)).2) ∧
    (∀ (p : Nat) (v : UInt8), bs[p]? = some v → t.loc j b = some (x.obj, a + p) →
      (step (step s (.dmiWrite d a bs)).1 (.tryPeek j b 1)).2 = .data [v]) := by
  have r := h.rep
  have hl : t.legal (.dmiWrite d a bs) := hb
  rw [(rep_step s t _ r hl).2] at hy
  cases hx : t.dmis[d]? with
  | none =>
    have : t.step (.dmiWrite d a bs) = (t, .threw) := by
      unfold Spec.step; simp only [hx]
    rw [this] at hy; cases hy
  | some x =>
    have e := step_dmiWrite hx a bs
    have hc : x.covers a bs.length = true := by
      cases hh : x.covers a bs.length with
      | true => rfl
      | false => rw [e, hh] at hy; cases hy
    rw [hc, if_pos rfl] at e
    have hcov := hc
    unfold Dmi.covers at hcov
    simp only [Bool.and_eq_true, decide_eq_true_eq] at hcov
    obtain ⟨n, g1, g2, g3, g4, g5⟩ := h.dmi x (List.mem_of_getElem? hx)
    have ok := r.cfg _ _ g1
    have hn0 := bs_pos ok.pow
    have hend : x.start + x.size ≤ n.total := by
      obtain ⟨q, hq⟩ := g4
      have h1 := block_end_le hn0 ok.al g5
      have h2 : x.start / n.bs = q := by rw [g3, hq]; exact Nat.mul_div_cancel_left _ (by rw [← g3]; exact hn0)
      rw [h2, Nat.add_mul, Nat.one_mul, g3, Nat.mul_comm, ← hq] at h1
      exact h1
    have hib : inBlock n.bs a bs.length := by
      obtain ⟨q, hq⟩ := g4
      unfold inBlock
      rw [g3]
      have h3 : a = x.size * q + (a - x.start) := by omega
      have h4 : a % x.size = (a - x.start) % x.size := by
        conv => lhs; rw [h3]
        rw [Nat.mul_add_mod]
      have h5 : (a - x.start) % x.size = a - x.start := Nat.mod_eq_of_lt (by have := hb.1; omega)
      omega
    have hlo : t.loc x.node a = some (x.obj, a) := (walk_obj r.cfg g1 g2 (by have := hb.1; omega)).1
    have hst := store_block bs r.cfg g1 hib hlo
    refine ⟨x, by rw [r.dmis]; exact hx, hcov.1.1, fun j b hj hs => ?_⟩
    obtain ⟨k1, k2⟩ := seen_store r hl (i := x.node) (a := a) (bs := bs) g1 (by rw [e, hst]; rfl) (by rw [e, hst]; rfl)
      (by rw [e]) hj hs
    have hlp : ∀ p, p < bs.length → t.loc x.node (a + p) = some (x.obj, a + p) := fun p hp =>
      loc_add r.cfg g1 hib hp hlo
    constructor
    · intro hne
      refine k1 (fun p hp e => hne p hp ?_)
      rw [e.1, hlp p hp]
    · intro p v hv hjb
      have hp : p < bs.length := (List.getElem?_eq_some_iff.1 hv).1
      refine k2 p v hv (by rw [hlp p hp]; exact hjb) (by rw [hjb]; rfl) ?_
      intro p' h1 h2 he
      rw [hlp p' h2, hlp p hp] at he
      simp at he; omega

example : ∃ s t, Reach (demo ++ [.getDMI 2 41 2]) s t ∧ (step s (.dmiWrite 0 5 [1, 2])).2 = .yes ∧
    t.loc 1 9 = some (0, 5) ∧ t.loc 1 17 = some (0, 5) :=
  ⟨_, _, ⟨by decide +kernel, rfl, rfl⟩, by decide +kernel, by decide +kernel, by decide +kernel⟩

/-- the direct interfaces of a reachable state stay, and one that is not valid stays so -/
theorem dmis_later (ops : List Op) : ∀ (t : Spec) (d : Nat) (x : Dmi), t.dmis[d]? = some x →
    ∃ x', (runOps Spec.step t ops).1.dmis[d]? = some x' ∧ x'.node = x.node ∧ (x.valid = false → x'.valid = false) := by
  induction ops with
  | nil => intro t d x h; exact ⟨x, h, rfl, id⟩
  | cons o ops ih =>
    intro t d x h
    have hone : ∃ x', (t.step o).1.dmis[d]? = some x' ∧ x'.node = x.node ∧ (x.valid = false → x'.valid = false) := by
      have same : (t.step o).1.dmis = t.dmis → ∃ x', (t.step o).1.dmis[d]? = some x' ∧ x'.node = x.node ∧
          (x.valid = false → x'.valid = false) := fun e => ⟨x, by rw [e]; exact h, rfl, id⟩
      cases o with
      | newObj _ _ _ _ => apply same; unfold Spec.step; dsimp only; split <;> rfl
      | newObjNode _ => apply same; unfold Spec.step; dsimp only; split <;> rfl
      | newMapNode _ _ => apply same; unfold Spec.step; dsimp only; split <;> rfl
      | addMapping _ _ _ _ _ =>
        apply same; unfold Spec.step; dsimp only; split
        · split
          · rfl
          · split <;> rfl
        · rfl
      | observe _ _ _ => exact same rfl
      | tryRead j a k => apply same; show (t.tryRead j a k).1.dmis = _; unfold Spec.tryRead; dsimp only; split <;> rfl
      | read j a k => apply same; show (t.tryRead j a k).1.dmis = _; unfold Spec.tryRead; dsimp only; split <;> rfl
      | tryWrite j a bs =>
        apply same; show (t.tryWrite j a bs).1.dmis = _; unfold Spec.tryWrite; dsimp only; split
        · exact store_dmis _ _ _ _
        · rfl
      | write j a bs =>
        apply same; show (t.tryWrite j a bs).1.dmis = _; unfold Spec.tryWrite; dsimp only; split
        · exact store_dmis _ _ _ _
        · rfl
      | tryPeek _ _ _ => exact same rfl
      | peek _ _ _ => exact same rfl
      | tryPoke j a bs =>
        apply same; show (t.tryPoke j a bs).1.dmis = _; unfold Spec.tryPoke; split
        · exact store_dmis _ _ _ _
        · rfl
      | poke j a bs =>
        apply same; show (t.tryPoke j a bs).1.dmis = _; unfold Spec.tryPoke; split
        · exact store_dmis _ _ _ _
        · rfl
      | dmiRead d a k => apply same; unfold Spec.step; dsimp only; split <;> rfl
      | dmiWrite d a bs =>
        apply same; unfold Spec.step; dsimp only; split
        · rfl
        · split <;> rfl
      | invalidate i =>
        have e : (t.step (.invalidate i)).1.dmis[d]? = some (if x.node = i then { x with valid := false } else x) := by
          show (t.dmis.map _)[d]? = _
          rw [List.getElem?_map, h]; rfl
        refine ⟨_, e, ?_, ?_⟩
        · split <;> rfl
        · intro hv; split
          · rfl
          · exact hv
      | getDMI i a k =>
        have e : (t.getDMI i a k).1.dmis = t.dmis ∨ ∃ y, (t.getDMI i a k).1.dmis = t.dmis ++ [y] := by
          unfold Spec.getDMI
          split
          · exact Or.inl rfl
          · split
            · dsimp only
              split
              · exact Or.inl rfl
              · exact Or.inr ⟨_, rfl⟩
            · exact Or.inl rfl
        rcases e with e | ⟨y, e⟩
        · exact same e
        · refine ⟨x, ?_, rfl, id⟩
          show (t.getDMI i a k).1.dmis[d]? = _
          rw [e, List.getElem?_append_left (List.getElem?_eq_some_iff.1 h).1]
          exact h
    obtain ⟨x1, h1, h2, h3⟩ := hone
    obtain ⟨x2, g1, g2, g3⟩ := ih (t.step o).1 d x1 h1
    exact ⟨x2, g1, g2.trans h2, fun hv => g3 (h3 hv)⟩

/-- once its interface was told to invalidate them, a direct interface refuses every access for ever -/
theorem C104_invalidated (pre post : List Op) (i d : Nat)
    (h : legalOps Spec.step Spec.legal Spec.empty (pre ++ .invalidate i :: post))
    (hd : ∃ x, (runOps step Sys.empty pre).1.dmis[d]? = some x ∧ x.node = i) (a k : Nat) (bs : Bytes) (hs : sized a k)
    (hb : sized a bs.length) :
    (step (runOps step Sys.empty (pre ++ .invalidate i :: post)).1 (.dmiRead d a k)).2 = .no ∧
    (step (runOps step Sys.empty (pre ++ .invalidate i :: post)).1 (.dmiWrite d a bs)).2 = .no := by
  have hsplit : ∀ (l1 l2 : List Op) (t : Spec), legalOps Spec.step Spec.legal t (l1 ++ l2) →
      legalOps Spec.step Spec.legal t l1 := by
    intro l1
    induction l1 with
    | nil => intro l2 t h; trivial
    | cons o l1 ih => intro l2 t h; exact ⟨h.1, ih l2 _ h.2⟩
  have r0 := Reach.rep ⟨hsplit pre _ _ h, rfl, rfl⟩
  have r := Reach.rep ⟨h, rfl, rfl⟩
  obtain ⟨x, hx, hxi⟩ := hd
  rw [r0.dmis] at hx
  have key : ∃ x', (runOps Spec.step Spec.empty (pre ++ .invalidate i :: post)).1.dmis[d]? = some x' ∧ x'.valid = false := by
    rw [runOps_append]
    show ∃ x', (runOps Spec.step ((runOps Spec.step Spec.empty pre).1.step (.invalidate i)).1 post).1.dmis[d]? = some x' ∧ _
    generalize (runOps Spec.step Spec.empty pre).1 = t at hx
    have e : (t.step (.invalidate i)).1.dmis[d]? = some { x with valid := false } := by
      show (t.dmis.map _)[d]? = _
      rw [List.getElem?_map, hx]
      show some (if x.node = i then _ else _) = _
      rw [if_pos hxi]
    obtain ⟨x', g1, _, g3⟩ := dmis_later post _ d _ e
    exact ⟨x', g1, g3 rfl⟩
  obtain ⟨x', k1, k2⟩ := key
  generalize (runOps Spec.step Spec.empty (pre ++ .invalidate i :: post)).1 = t at r k1
  have hcov : ∀ k, x'.covers a k = false := by intro k; unfold Dmi.covers; rw [k2]; rfl
  constructor
  · rw [(rep_step _ t (.dmiRead d a k) r hs).2]
    rw [step_dmiRead k1, hcov]; rfl
  · rw [(rep_step _ t (.dmiWrite d a bs) r hb).2]
    rw [step_dmiWrite k1, hcov]; rfl

example : legalOps Spec.step Spec.legal Spec.empty ((demo ++ [.getDMI 2 41 2]) ++ .invalidate 0 :: [.getDMI 2 41 2]) ∧
    ((runOps step Sys.empty (demo ++ [.getDMI 2 41 2])).1.dmis[0]?).map (·.node) = some 0 := by decide +kernel

/-- after an invalidation no new direct interface can be had for the block: the invalid one is handed out again -/
theorem C104_reacquire_violated : ∃ ops s t, Reach ops s t ∧ t.legal (.getDMI 0 4 2) ∧ (step s (.getDMI 0 4 2)).2 = .id 0 ∧
    (step (step s (.getDMI 0 4 2)).1 (.dmiRead 0 4 2)).2 = .no :=
  ⟨[.newObj 2 0xab 1 16, .newObjNode 0, .getDMI 0 4 2, .invalidate 0], _, _, ⟨by decide +kernel, rfl, rfl⟩,
    by decide +kernel, by decide +kernel, by decide +kernel⟩

/-- the direct interface a map hands out takes the addresses of the memory behind it: used with the address it was
asked for, it refuses -/
theorem C104_map_address_violated : ∃ ops s t, Reach ops s t ∧ t.legal (.getDMI 1 8 4) ∧ (step s (.getDMI 1 8 4)).2 = .id 0 ∧
    (step (step s (.getDMI 1 8 4)).1 (.dmiRead 0 8 4)).2 = .no ∧ (step s (.tryRead 1 8 4)).2 ≠ .no :=
  ⟨demo, _, _, ⟨demo_legal, rfl, rfl⟩, by decide +kernel, by decide +kernel, by decide +kernel, by decide +kernel⟩

/-- asked for a direct interface outside the memory, an interface throws instead of answering that there is none -/
theorem C104_outside_violated : ∃ ops s t, Reach ops s t ∧ (step s (.tryRead 0 16 4)).2 = .no ∧
    (step s (.getDMI 0 16 4)).2 = .threw :=
  ⟨demo, _, _, ⟨demo_legal, rfl, rfl⟩, by decide +kernel, by decide +kernel⟩

/-! ### C105 -/

/-- every byte of the range can be peeked -/
def peekable (s : Sys) (i a k : Nat) : Prop := ∀ q, q < k → ∃ b, (step s (.tryPeek i (a + q) 1)).2 = .data [b]

theorem peekable_iff {s t} (r : SRep s t) {i a k : Nat} (hi : i < t.nNode) (hs : sized a k) :
    peekable s i a k ↔ t.mapped i a k = true := by
  unfold peekable Spec.mapped
  rw [List.all_eq_true]
  constructor
  · intro h q hq
    have hq' := List.mem_range.1 hq
    obtain ⟨b, hb⟩ := h q hq'
    rw [peek_one r hi ⟨by omega, by have := hs.2; omega⟩] at hb
    split at hb
    · assumption
    · cases hb
  · intro h q hq
    refine ⟨t.byte i (a + q), ?_⟩
    rw [peek_one r hi ⟨by omega, by have := hs.2; omega⟩, if_pos (h q (List.mem_range.2 hq))]

theorem reach_full {t : Spec} {i a k : Nat} (h : t.mapped i a k = true) : t.reach i a k = k := by
  unfold Spec.reach
  have := List.takeWhile_append_of_pos (p := fun j => (t.loc i (a + j)).isSome) (l₁ := List.range k) (l₂ := [])
    (fun q hq => (List.all_eq_true.1 h) q hq)
  simp only [List.append_nil, List.takeWhile_nil] at this
  rw [this]; simp

/-- reads and writes succeed exactly when the range is in one block and each of its bytes can be peeked; peeks and
pokes exactly when each of its bytes can be peeked -/
theorem C105_success {ops s t} (h : Reach ops s t) (i a k : Nat) (n : SNode) (hn : t.nodes i = some n) (hs : sized a k)
    (bs : Bytes) (hb : bs.length = k) :
    ((∃ d, (step s (.tryRead i a k)).2 = .data d) ↔ a / n.bs = (a + k - 1) / n.bs ∧ peekable s i a k) ∧
    ((∃ d, (step s (.read i a k)).2 = .data d) ↔ a / n.bs = (a + k - 1) / n.bs ∧ peekable s i a k) ∧
    ((step s (.tryWrite i a bs)).2 = .yes ↔ a / n.bs = (a + k - 1) / n.bs ∧ peekable s i a k) ∧
    ((step s (.write i a bs)).2 = .yes ↔ a / n.bs = (a + k - 1) / n.bs ∧ peekable s i a k) ∧
    ((∃ d, (step s (.tryPeek i a k)).2 = .data d) ↔ peekable s i a k) ∧
    ((∃ d, (step s (.peek i a k)).2 = .data d) ↔ peekable s i a k) ∧
    ((step s (.tryPoke i a bs)).2 = .yes ↔ peekable s i a k) ∧
    ((step s (.poke i a bs)).2 = .yes ↔ peekable s i a k) := by
  have r := h.rep
  have hi : i < t.nNode := (r.nodeLt i).1 (by rw [hn]; simp)
  have hcr : a / n.bs = (a + k - 1) / n.bs ↔ t.crosses i a k = false := by
    unfold Spec.crosses; rw [hn]; simp
  rw [peekable_iff r hi hs, hcr]
  subst hb
  have rd : (∃ d, (t.tryRead i a bs.length).2 = some d) ↔ t.crosses i a bs.length = false ∧ t.mapped i a bs.length = true := by
    unfold Spec.tryRead; dsimp only
    by_cases hc : t.crosses i a bs.length = false ∧ t.mapped i a bs.length = true
    · rw [if_pos hc]; exact ⟨fun _ => hc, fun _ => ⟨_, rfl⟩⟩
    · rw [if_neg hc]; exact ⟨fun ⟨d, e⟩ => (by cases e), fun h => absurd h hc⟩
  have wr : (t.tryWrite i a bs).2 = true ↔ t.crosses i a bs.length = false ∧ t.mapped i a bs.length = true := by
    unfold Spec.tryWrite; dsimp only
    by_cases hc : t.crosses i a bs.length = false ∧ t.mapped i a bs.length = true
    · rw [if_pos hc]; exact ⟨fun _ => hc, fun _ => rfl⟩
    · rw [if_neg hc]; exact ⟨fun e => (by cases e), fun h => absurd h hc⟩
  have pk : (∃ d, t.tryPeek i a bs.length = some d) ↔ t.mapped i a bs.length = true := by
    unfold Spec.tryPeek
    by_cases hc : t.mapped i a bs.length = true
    · rw [if_pos hc]; exact ⟨fun _ => hc, fun _ => ⟨_, rfl⟩⟩
    · rw [if_neg hc]; exact ⟨fun ⟨d, e⟩ => (by cases e), fun h => absurd h hc⟩
  have po : (t.tryPoke i a bs).2 = true ↔ t.mapped i a bs.length = true := by
    have hwithin : t.mapped i a bs.length = true → t.within i a bs.length = true := by
      intro hm
      have h1 := (List.all_eq_true.1 hm) (bs.length - 1) (List.mem_range.2 (by have := hs.1; omega))
      cases hl : t.loc i (a + (bs.length - 1)) with
      | none => rw [hl] at h1; cases h1
      | some p =>
        have h2 := (loc_block r.cfg i n _ p.1 p.2 hn hl).2.2.1
        unfold Spec.within; rw [hn]
        have := hs.1
        simp; omega
    unfold Spec.tryPoke
    by_cases hm : t.mapped i a bs.length = true
    · rw [if_pos (hwithin hm)]
      refine ⟨fun _ => hm, fun _ => ?_⟩
      have : t.reach i a bs.length = bs.length := by
        exact reach_full hm
      simp [this]
    · refine ⟨fun e => ?_, fun h => absurd h hm⟩
      by_cases hw : t.within i a bs.length = true
      · rw [if_pos hw] at e
        have e' : t.reach i a bs.length = bs.length := by simpa using e
        exfalso
        apply hm
        unfold Spec.reach at e'
        have h2 : ((List.range bs.length).takeWhile fun j => (t.loc i (a + j)).isSome) = List.range bs.length :=
          List.Sublist.eq_of_length (List.takeWhile_sublist _) (by rw [e']; simp)
        unfold Spec.mapped
        rw [← h2]
        exact List.all_takeWhile
      · rw [if_neg hw] at e; cases e
  have hls : ∀ (op : Op), t.legal op → (step s op).2 = (t.step op).2 := fun op hl => (rep_step s t op r hl).2
  refine ⟨?_, ?_, ?_, ?_, ?_, ?_, ?_, ?_⟩
  · rw [← rd, hls (.tryRead i a bs.length) ⟨hi, hs⟩]
    show (∃ d, (match (t.tryRead i a bs.length).2 with | none => Res.no | some d => .data d) = .data d) ↔ _
    cases (t.tryRead i a bs.length).2 <;> simp
  · rw [← rd, hls (.read i a bs.length) ⟨hi, hs⟩]
    show (∃ d, (match (t.tryRead i a bs.length).2 with | none => Res.err (t.accessError i a bs.length) | some d => .data d) = .data d) ↔ _
    cases (t.tryRead i a bs.length).2 <;> simp
  · rw [← wr, hls (.tryWrite i a bs) ⟨hi, hs⟩]
    show (if (t.tryWrite i a bs).2 then Res.yes else .no) = .yes ↔ _
    cases (t.tryWrite i a bs).2 <;> simp
  · rw [← wr, hls (.write i a bs) ⟨hi, hs⟩]
    show (if (t.tryWrite i a bs).2 then Res.yes else .err (t.accessError i a bs.length)) = .yes ↔ _
    cases (t.tryWrite i a bs).2 <;> simp
  · rw [← pk, hls (.tryPeek i a bs.length) ⟨hi, hs⟩]
    show (∃ d, (match t.tryPeek i a bs.length with | none => Res.no | some d => .data d) = .data d) ↔ _
    cases t.tryPeek i a bs.length <;> simp
  · rw [← pk, hls (.peek i a bs.length) ⟨hi, hs⟩]
    show (∃ d, (match t.tryPeek i a bs.length with | none => Res.err (t.debugError i a bs.length) | some d => .data d) = .data d) ↔ _
    cases t.tryPeek i a bs.length <;> simp
  · rw [← po, hls (.tryPoke i a bs) ⟨hi, hs⟩]
    show (if (t.tryPoke i a bs).2 then Res.yes else .no) = .yes ↔ _
    cases (t.tryPoke i a bs).2 <;> simp
  · rw [← po, hls (.poke i a bs) ⟨hi, hs⟩]
    show (if (t.tryPoke i a bs).2 then Res.yes else .err (t.debugError i a bs.length)) = .yes ↔ _
    cases (t.tryPoke i a bs).2 <;> simp

example : ∃ s t, Reach demo s t ∧ (∃ n, t.nodes 2 = some n) ∧ (step s (.tryPeek 2 34 6)).2 ≠ .no ∧ (step s (.tryRead 2 34 6)).2 = .no ∧
    (step s (.tryRead 2 34 2)).2 = .data [0xab, 0xab] :=
  ⟨_, _, ⟨demo_legal, rfl, rfl⟩, ⟨_, rfl⟩, by decide +kernel, by decide +kernel, by decide +kernel⟩

theorem tryWrite_res (t : Spec) (i a : Nat) (bs : Bytes) :
    (t.tryWrite i a bs).2 = (!t.crosses i a bs.length && t.mapped i a bs.length) := by
  unfold Spec.tryWrite
  dsimp only
  by_cases hc : t.crosses i a bs.length = false ∧ t.mapped i a bs.length = true
  · rw [if_pos hc, hc.1, hc.2]; rfl
  · rw [if_neg hc]
    cases h1 : t.crosses i a bs.length <;> cases h2 : t.mapped i a bs.length <;> simp_all

/-- the reason given for a refused read or write of an interface on a memory -/
theorem C105_reason_object {ops s t} (h : Reach ops s t) (i a k : Nat) (n : SNode) (o : Nat) (hn : t.nodes i = some n)
    (hk : n.kind = .obj o) (hs : sized a k) (bs : Bytes) (hb : bs.length = k) (e : Err) :
    ((step s (.read i a k)).2 = .err e ↔
      (e = .span ∧ a / n.bs ≠ (a + k - 1) / n.bs) ∨ (e = .window ∧ a / n.bs = (a + k - 1) / n.bs ∧ n.total < a + k)) ∧
    ((step s (.write i a bs)).2 = .err e ↔
      (e = .span ∧ a / n.bs ≠ (a + k - 1) / n.bs) ∨ (e = .window ∧ a / n.bs = (a + k - 1) / n.bs ∧ n.total < a + k)) ∧
    ((step s (.peek i a k)).2 = .err e ↔ e = .window ∧ n.total < a + k) ∧
    ((step s (.poke i a bs)).2 = .err e ↔ e = .window ∧ n.total < a + k) := by
  have r := h.rep
  have hi : i < t.nNode := (r.nodeLt i).1 (by rw [hn]; simp)
  subst hb
  have hm : t.mapped i a bs.length = decide (a + bs.length ≤ n.total) := by
    unfold Spec.mapped
    rw [Bool.eq_iff_iff, List.all_eq_true, decide_eq_true_eq]
    constructor
    · intro hh
      have h1 := hh (bs.length - 1) (List.mem_range.2 (by have := hs.1; omega))
      cases hl : t.loc i (a + (bs.length - 1)) with
      | none => rw [hl] at h1; cases h1
      | some p =>
        have h2 := (loc_block r.cfg i n _ p.1 p.2 hn hl).2.2.1
        have := hs.1
        omega
    · intro hh q hq
      rw [(walk_obj r.cfg hn hk (a := a + q) (by have := List.mem_range.1 hq; omega)).1]; rfl
  have hcr : t.crosses i a bs.length = decide (a / n.bs ≠ (a + bs.length - 1) / n.bs) := by
    unfold Spec.crosses; rw [hn]; rw [Bool.eq_iff_iff]; simp
  have hwi : t.within i a bs.length = decide (a + bs.length ≤ n.total) := by unfold Spec.within; rw [hn]
  have hae : t.accessError i a bs.length = if t.crosses i a bs.length then .span else if t.within i a bs.length then .unknown else .window := by
    unfold Spec.accessError; rw [hn]; dsimp only; rw [hk]
  have hls : ∀ (op : Op), t.legal op → (step s op).2 = (t.step op).2 := fun op hl => (rep_step s t op r hl).2
  rw [show (n.total < a + bs.length) = ¬ (a + bs.length ≤ n.total) from propext (by omega)]
  by_cases h1 : a / n.bs = (a + bs.length - 1) / n.bs <;> by_cases h2 : a + bs.length ≤ n.total
  all_goals
    refine ⟨?_, ?_, ?_, ?_⟩
    · rw [hls (.read i a bs.length) ⟨hi, hs⟩]
      show (match (t.tryRead i a bs.length).2 with | none => Res.err (t.accessError i a bs.length) | some d => .data d) = .err e ↔ _
      unfold Spec.tryRead
      dsimp only
      rw [hae, hm, hcr, hwi]
      cases e <;> simp [h1, h2] <;> omega
    · rw [hls (.write i a bs) ⟨hi, hs⟩]
      show (if (t.tryWrite i a bs).2 then Res.yes else .err (t.accessError i a bs.length)) = .err e ↔ _
      rw [tryWrite_res, hae, hm, hcr, hwi]
      cases e <;> simp [h1, h2] <;> omega
    · rw [hls (.peek i a bs.length) ⟨hi, hs⟩]
      show (match t.tryPeek i a bs.length with | none => Res.err (t.debugError i a bs.length) | some d => .data d) = .err e ↔ _
      unfold Spec.tryPeek Spec.debugError
      rw [hm, hwi]
      cases e <;> simp [h2] <;> omega
    · rw [hls (.poke i a bs) ⟨hi, hs⟩]
      show (if (t.tryPoke i a bs).2 then Res.yes else .err (t.debugError i a bs.length)) = .err e ↔ _
      have hr : t.within i a bs.length = true → t.reach i a bs.length = bs.length := by
        intro hw
        rw [hwi] at hw
        have hmm : t.mapped i a bs.length = true := by rw [hm]; exact hw
        exact reach_full hmm
      unfold Spec.tryPoke Spec.debugError
      cases hw : t.within i a bs.length with
      | true =>
        rw [if_pos rfl, hr hw]
        rw [hwi] at hw
        simp at hw
        simp; omega
      | false =>
        rw [hwi] at hw
        simp at hw
        cases e <;> simp <;> omega

example : ∃ s t, Reach demo s t ∧ (step s (.read 0 3 2)).2 = .err .span ∧ (step s (.write 0 16 [1])).2 = .err .window ∧
    (step s (.peek 0 15 2)).2 = .err .window :=
  ⟨_, _, ⟨demo_legal, rfl, rfl⟩, by decide +kernel, by decide +kernel, by decide +kernel⟩

/-- an access whose end wraps around the address space passes the window check: the peek throws instead of answering
false -/
theorem C105_wrap_violated : ∃ ops s t, Reach ops s t ∧ ¬ sized (2 ^ 64 - 1) 2 ∧
    (step s (.tryPeek 0 (2 ^ 64 - 1) 2)).2 = .threw :=
  ⟨demo.take 2, _, _, ⟨by decide +kernel, rfl, rfl⟩, by decide +kernel, by decide +kernel⟩

end Sparta.MemIf
