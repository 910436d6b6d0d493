import Verif.MemIf.Lemmas5

/-!
# Simulation of all operations
-/

namespace Sparta.MemIf

open Sparta.MemoryMap (wordSize Mapping)

theorem rep_empty : SRep Sys.empty Spec.empty := by
  refine ⟨rfl, rfl, rfl, rfl, rfl, rfl, rfl, rfl, fun o => Or.inl ⟨rfl, rfl⟩, ?_, fun i => Or.inl ⟨rfl, rfl⟩, ?_, ?_, ?_⟩
  · intro o h; exact absurd rfl h
  · intro i; exact ⟨fun h => absurd rfl h, fun h => absurd h (Nat.not_lt_zero _)⟩
  · intro i n h; cases h
  · intro x h; cases h

theorem pow63_lt : (2 : Nat) ^ 63 < wordSize := Nat.pow_lt_pow_right (by omega) (by omega)

theorem newObj_sim {s t} (r : SRep s t) (lsb fill fsz size : Nat) (hl : size ≤ 2 ^ 63) :
    SRep (step s (.newObj lsb fill fsz size)).1 (t.step (.newObj lsb fill fsz size)).1 ∧
      (step s (.newObj lsb fill fsz size)).2 = (t.step (.newObj lsb fill fsz size)).2 := by
  unfold step Spec.step
  dsimp only
  unfold ArchData.AD.initMemory
  by_cases h1 : size ≠ 0 ∧ size % 2 ^ lsb = 0
  · rw [if_pos h1]
    by_cases h2 : (fsz = 1 ∨ fsz = 2 ∨ fsz = 4 ∨ fsz = 8) ∧ fill < 2 ^ (8 * fsz) ∧ lsb ≤ 31
    · rw [if_pos ⟨h2.1, h2.2.1, h2.2.2, h1.1, h1.2⟩]
      obtain ⟨m, hm⟩ : ∃ m, ArchData.AD.init lsb fill fsz true size [] = some m := by
        unfold ArchData.AD.init; rw [if_pos h2]; exact ⟨_, rfl⟩
      rw [hm]
      dsimp only
      have rep := ArchData.rep_init hl (by simp) hm
      refine ⟨?_, by rw [r.nObj]⟩
      have hfree : t.objs t.nObj = none := by
        cases h : t.objs t.nObj with
        | none => rfl
        | some q => exact absurd (r.objLt t.nObj (by rw [h]; simp)) (by omega)
      have hsfree : s.objs t.nObj = none := by
        rcases r.objs t.nObj with ⟨g, _⟩ | ⟨m', ms, _, g, _⟩
        · exact g
        · rw [hfree] at g; cases g
      refine ⟨by show s.nObj + 1 = _; rw [r.nObj], r.nNode, r.reads, r.writes, r.obsR, r.obsW, r.notes, r.dmis, ?_, ?_,
        r.nodes, r.nodeLt, ?_, ?_⟩
      · intro o
        show ObjRep (upd s.objs s.nObj _ o) (upd t.objs t.nObj _ o)
        rw [r.nObj]
        unfold upd
        by_cases ho : o = t.nObj
        · rw [if_pos ho, if_pos ho]
          refine Or.inr ⟨m, _, rfl, rfl, rep, ?_⟩
          have e1 : (ArchData.Spec.init lsb fill fsz size []).lsb = lsb := rfl
          have e2 : (ArchData.Spec.init lsb fill fsz size []).size = size := rfl
          rw [e1, e2]
          exact ⟨Nat.dvd_of_mod_eq_zero h1.2, by omega⟩
        · rw [if_neg ho, if_neg ho]; exact r.objs o
      · intro o h
        by_cases ho : o = t.nObj
        · rw [ho]; exact Nat.lt_succ_self _
        · have h' : upd t.objs t.nObj (some (ArchData.Spec.init lsb fill fsz size [])) o ≠ none := h
          rw [upd, if_neg ho] at h'
          exact Nat.lt_succ_of_lt (r.objLt o h')
      · intro j nj hj
        have ok := r.cfg j nj hj
        refine ⟨ok.pow, ok.al, ok.lt, ?_, ok.map⟩
        intro o hk
        obtain ⟨q, g1, g2⟩ := ok.obj o hk
        refine ⟨q, ?_, g2⟩
        show upd t.objs t.nObj _ o = _
        rw [upd, if_neg]
        · exact g1
        · intro e; rw [e, hfree] at g1; cases g1
      · intro x hx
        obtain ⟨q, g1, g2⟩ := r.dmi x hx
        refine ⟨q, ?_, g2⟩
        show upd s.objs s.nObj _ x.obj = _
        rw [r.nObj, upd, if_neg]
        · exact g1
        · intro e; rw [e, hsfree] at g1; cases g1
    · rw [if_neg (fun h => h2 ⟨h.1, h.2.1, h.2.2.1⟩)]
      have hm : ArchData.AD.init lsb fill fsz true size [] = none := by
        unfold ArchData.AD.init; rw [if_neg h2]
      rw [hm]
      exact ⟨r, rfl⟩
  · rw [if_neg h1, if_neg (fun h => h1 ⟨h.2.2.2.1, h.2.2.2.2⟩)]
    exact ⟨r, rfl⟩

theorem node_free {s t} (r : SRep s t) : t.nodes t.nNode = none := by
  cases h : t.nodes t.nNode with
  | none => rfl
  | some q => exact absurd ((r.nodeLt t.nNode).1 (by rw [h]; simp)) (by omega)

/-- a new interface -/
theorem addNode_sim {s t} (r : SRep s t) {n : Node} {sn : SNode} (hr : NRep n sn)
    (hok : NodeOk t.nodes t.objs t.nNode sn) :
    SRep (s.addNode n).1 { t with nNode := t.nNode + 1, nodes := upd t.nodes t.nNode (some sn) } := by
  have hfree := node_free r
  have hmap : ∀ {i bs m}, MapOk t.nodes i bs m → MapOk (upd t.nodes t.nNode (some sn)) i bs m := by
    intro i bs m mo
    refine ⟨mo.lt, ?_, mo.start, mo.stop, mo.dest, mo.top, mo.fits⟩
    obtain ⟨tn, g1, g2⟩ := mo.tgt
    refine ⟨tn, ?_, g2⟩
    rw [upd, if_neg]
    · exact g1
    · intro e; rw [e, hfree] at g1; cases g1
  refine ⟨r.nObj, by show s.nNode + 1 = _; rw [r.nNode], r.reads, r.writes, r.obsR, r.obsW, r.notes, r.dmis, r.objs, r.objLt,
    ?_, ?_, ?_, r.dmi⟩
  · intro i
    show NodeRep (upd s.nodes s.nNode _ i) (upd t.nodes t.nNode _ i)
    rw [r.nNode]
    unfold upd
    by_cases hi : i = t.nNode
    · rw [if_pos hi, if_pos hi]; exact Or.inr ⟨n, sn, rfl, rfl, hr⟩
    · rw [if_neg hi, if_neg hi]; exact r.nodes i
  · intro i
    show upd t.nodes t.nNode _ i ≠ none ↔ i < t.nNode + 1
    unfold upd
    by_cases hi : i = t.nNode
    · rw [if_pos hi]; simp; omega
    · rw [if_neg hi, r.nodeLt]; omega
  · intro i ni hi
    have hi' : upd t.nodes t.nNode (some sn) i = some ni := hi
    unfold upd at hi'
    by_cases e : i = t.nNode
    · rw [if_pos e] at hi'
      cases hi'
      rw [e]
      exact ⟨hok.pow, hok.al, hok.lt, hok.obj, fun ms hk m hm => hmap (hok.map ms hk m hm)⟩
    · rw [if_neg e] at hi'
      have ok := r.cfg i ni hi'
      exact ⟨ok.pow, ok.al, ok.lt, ok.obj, fun ms hk m hm => hmap (ok.map ms hk m hm)⟩

theorem newObjNode_sim {s t} (r : SRep s t) (o : Nat) :
    SRep (step s (.newObjNode o)).1 (t.step (.newObjNode o)).1 ∧
      (step s (.newObjNode o)).2 = (t.step (.newObjNode o)).2 := by
  unfold step Spec.step
  dsimp only
  rcases r.objs o with ⟨g1, g2⟩ | ⟨m, ms, g1, g2, rep, hd⟩
  · rw [g1, g2]; exact ⟨r, rfl⟩
  · rw [g1, g2]
    dsimp only
    obtain ⟨hd, hpos⟩ := hd
    have hls := rep.ls
    have hp := ArchData.lineSize_pos m
    have hpow : 2 ^ m.lineSize.log2 = m.lineSize := by rw [ArchData.AD.lineSize, Nat.log2_two_pow]
    have hsz := rep.size
    have hd' : m.lineSize ∣ m.size := by rw [← hls, ← hsz]; exact hd
    have hct : ctorOk m.lineSize 0 m.size = true := by
      unfold ctorOk
      have e1 : m.size % m.lineSize = 0 := Nat.mod_eq_zero_of_dvd hd'
      have e2 : m.lineSize ≠ 0 := by omega
      have e3 : 0 < m.size := by omega
      simp [hpow, e1, e2, e3]
    rw [if_pos hct]
    refine ⟨?_, by show Res.id s.nNode = _; rw [r.nNode]⟩
    refine addNode_sim r ⟨hls.symm, rfl, hsz.symm, ?_, ?_⟩ ⟨by rw [hls]; exact hpow, hd, ?_, ?_, ?_⟩
    · intro o' h; cases h; rfl
    · intro mp h; cases h
    · have h1 := rep.wf.size
      have h2 := pow63_lt
      show ms.size < wordSize
      omega
    · intro o' h; cases h; exact ⟨ms, g2, rfl, rfl⟩
    · intro ms' h; cases h

theorem newMapNode_sim {s t} (r : SRep s t) (bs total : Nat) (hl : bs < 2 ^ 31 ∧ total < wordSize) :
    SRep (step s (.newMapNode bs total)).1 (t.step (.newMapNode bs total)).1 ∧
      (step s (.newMapNode bs total)).2 = (t.step (.newMapNode bs total)).2 := by
  unfold step Spec.step
  dsimp only
  by_cases h : bs ≠ 0 ∧ 2 ^ bs.log2 = bs ∧ 0 < total ∧ total % bs = 0
  · have hct : ctorOk bs 0 total = true := by
      unfold ctorOk
      simp [h.1, h.2.1, h.2.2.1, h.2.2.2]
    rw [if_pos h, if_pos hct]
    have hlog : bs.log2 < 31 := by
      have : 2 ^ bs.log2 < 2 ^ 31 := by rw [h.2.1]; exact hl.1
      exact (Nat.pow_lt_pow_iff_right (by omega)).1 this
    obtain ⟨m, hm⟩ : ∃ m, MemoryMap.create bs = some m := by
      unfold MemoryMap.create
      rw [if_neg h.1, if_neg (by omega)]; exact ⟨_, rfl⟩
    rw [hm]
    dsimp only
    obtain ⟨c1, c2, c3, c4, _⟩ := MemoryMap.create_inv hm
    refine ⟨?_, by show Res.id s.nNode = _; rw [r.nNode]⟩
    refine addNode_sim r ⟨rfl, rfl, rfl, ?_, ?_⟩ ⟨h.2.1, Nat.dvd_of_mod_eq_zero h.2.2.2, hl.2, ?_, ?_⟩
    · intro o h; cases h
    · intro mp h; cases h; exact ⟨by rw [c2], c3, c4, _, c1⟩
    · intro o h; cases h
    · intro ms h m hm; cases h; cases hm
  · rw [if_neg h]
    have hct : ¬ ctorOk bs 0 total = true := by
      unfold ctorOk
      intro hh
      simp at hh
      exact h ⟨hh.1.1.2, hh.1.2, hh.1.1.1, hh.2⟩
    rw [if_neg hct]
    exact ⟨r, rfl⟩

/-- a node changes, keeping its block size and its size -/
theorem setNode_sim {s t} (r : SRep s t) {i : Nat} {n' : Node} {sn sn' : SNode} (hn : t.nodes i = some sn)
    (hb : sn'.bs = sn.bs) (hr : NRep n' sn') (hok : NodeOk t.nodes t.objs i sn') :
    SRep { s with nodes := upd s.nodes i (some n') } { t with nodes := upd t.nodes i (some sn') } := by
  have hmap : ∀ {j bs m}, MapOk t.nodes j bs m → MapOk (upd t.nodes i (some sn')) j bs m := by
    intro j bs m mo
    refine ⟨mo.lt, ?_, mo.start, mo.stop, mo.dest, mo.top, mo.fits⟩
    obtain ⟨tn, g1, g2⟩ := mo.tgt
    unfold upd
    by_cases e : m.memif = i
    · rw [e, hn] at g1; cases g1
      rw [if_pos e]; exact ⟨sn', rfl, hb.trans g2⟩
    · rw [if_neg e]; exact ⟨tn, g1, g2⟩
  refine ⟨r.nObj, r.nNode, r.reads, r.writes, r.obsR, r.obsW, r.notes, r.dmis, r.objs, r.objLt,
    ?_, ?_, ?_, r.dmi⟩
  · intro j
    show NodeRep (upd s.nodes i _ j) (upd t.nodes i _ j)
    unfold upd
    by_cases hi : j = i
    · rw [if_pos hi, if_pos hi]; exact Or.inr ⟨n', sn', rfl, rfl, hr⟩
    · rw [if_neg hi, if_neg hi]; exact r.nodes j
  · intro j
    show upd t.nodes i _ j ≠ none ↔ _
    unfold upd
    by_cases hi : j = i
    · rw [if_pos hi, hi, ← r.nodeLt, hn]; simp
    · rw [if_neg hi]; exact r.nodeLt j
  · intro j nj hj
    have hj' : upd t.nodes i (some sn') j = some nj := hj
    unfold upd at hj'
    by_cases e : j = i
    · rw [if_pos e] at hj'
      cases hj'
      rw [e]
      exact ⟨hok.pow, hok.al, hok.lt, hok.obj, fun ms hk m hm => hmap (hok.map ms hk m hm)⟩
    · rw [if_neg e] at hj'
      have ok := r.cfg j nj hj'
      exact ⟨ok.pow, ok.al, ok.lt, ok.obj, fun ms hk m hm => hmap (ok.map ms hk m hm)⟩

theorem acceptable_iff {n target : SNode} {ms : List Mapping} {start stop dest : Nat} :
    acceptable n target ms start stop dest = true ↔ target.bs = n.bs ∧ start < stop ∧ start % n.bs = 0 ∧
      stop % n.bs = 0 ∧ dest % n.bs = 0 ∧ stop - start + dest ≤ target.total ∧
      ∀ m ∈ ms, m.stop ≤ start ∨ stop ≤ m.start := by
  unfold acceptable
  simp [and_assoc]

theorem addMapping_sim {s t} (r : SRep s t) (i start stop memif dest : Nat)
    (hl : t.legal (.addMapping i start stop memif dest)) :
    SRep (step s (.addMapping i start stop memif dest)).1 (t.step (.addMapping i start stop memif dest)).1 ∧
      (step s (.addMapping i start stop memif dest)).2 = (t.step (.addMapping i start stop memif dest)).2 := by
  obtain ⟨l1, l2, l3, l4, l5⟩ := hl
  unfold step Spec.step
  dsimp only
  rcases r.nodes i with ⟨g1, g2⟩ | ⟨n, sn, g1, g2, hr⟩
  · rw [g1, g2]; exact ⟨r, rfl⟩
  · rcases r.nodes memif with ⟨k1, k2⟩ | ⟨tn, tsn, k1, k2, htr⟩
    · rw [g1, g2, k1, k2]; exact ⟨r, rfl⟩
    · rw [g1, g2, k1, k2]
      dsimp only
      cases hk : n.kind with
      | obj o => rw [hr.obj o hk]; exact ⟨r, rfl⟩
      | map mp =>
        obtain ⟨hk', hbs, hmask, tr, I⟩ := hr.map mp hk
        rw [hk']
        dsimp only
        have ok := r.cfg i sn g2
        obtain ⟨res, mp', tr', e1, I', e2, e3, e4⟩ := MemoryMap.step_inv I
          (o := ⟨start, stop, some ⟨memif, tn.bs, tn.hi - tn.lo⟩, dest⟩) ⟨l2, l3, l4⟩
        have e1' : MemoryMap.addMapping mp start stop (some ⟨memif, tn.bs, tn.hi - tn.lo⟩) dest = some (res, mp') := e1
        have hmsk : ∀ a, a &&& mp.mask = 0 ↔ a % sn.bs = 0 := by
          intro a
          rw [hmask, MemoryMap.land_mask_dvd, ok.pow]
          exact ⟨Nat.mod_eq_zero_of_dvd, Nat.dvd_of_mod_eq_zero⟩
        have hck : ∀ m, MemoryMap.checkAdd mp start stop (some ⟨memif, tn.bs, tn.hi - tn.lo⟩) dest = .ok m ↔
            m = ⟨start, stop, dest, memif⟩ ∧ acceptable sn tsn mp.mappings start stop dest = true := by
          intro m
          have h := MemoryMap.checkAdd_ok I (o := ⟨start, stop, some ⟨memif, tn.bs, tn.hi - tn.lo⟩, dest⟩) (m := m)
          dsimp only at h
          rw [h, acceptable_iff]
          constructor
          · rintro ⟨mi, a1, a2, a3, a4, a5, a6, a7, a8, a9⟩
            cases a1
            rw [hmsk] at a5 a6 a7
            rw [Nat.mod_eq_of_lt l5] at a8
            have a8' : stop - start + dest ≤ tn.hi - tn.lo := a8
            have a3' : tn.bs = mp.blockSize := a3
            rw [htr.lo, htr.hi] at a8'
            exact ⟨a2, by rw [← htr.bs, a3', hbs], a4, a5, a6, a7, a8', a9⟩
          · rintro ⟨a2, a3, a4, a5, a6, a7, a8, a9⟩
            refine ⟨_, rfl, a2, ?_, a4, (hmsk _).2 a5, (hmsk _).2 a6, (hmsk _).2 a7, ?_, a9⟩
            · show tn.bs = mp.blockSize
              rw [htr.bs, a3, hbs]
            · rw [Nat.mod_eq_of_lt l5]
              show _ ≤ tn.hi - tn.lo
              rw [htr.lo, htr.hi]; exact a8
        rw [e1']
        rcases e4 with ⟨e, rfl, f1, f2⟩ | ⟨rfl, m, f1, f2⟩
        · dsimp only
          rw [if_neg]
          · exact ⟨r, rfl⟩
          · intro hacc
            have := (hck _).2 ⟨rfl, hacc⟩
            have f1' : MemoryMap.checkAdd mp start stop (some ⟨memif, tn.bs, tn.hi - tn.lo⟩) dest = .error e := f1
            rw [f1'] at this
            cases this
        · dsimp only
          obtain ⟨hm, hacc⟩ := (hck m).1 f1
          rw [if_pos hacc]
          refine ⟨?_, rfl⟩
          obtain ⟨b1, b2, b3, b4, b5, b6, b7⟩ := acceptable_iff.1 hacc
          rw [hm] at f2
          refine setNode_sim (n' := ⟨n.bs, n.lo, n.hi, .map mp'⟩) (sn := sn) (sn' := ⟨sn.bs, sn.total, .map (mp.mappings ++ [⟨start, stop, dest, memif⟩])⟩) r g2 rfl
            ⟨hr.bs, hr.lo, hr.hi, ?_, ?_⟩ ⟨ok.pow, ok.al, ok.lt, ?_, ?_⟩
          · intro o h; cases h
          · intro q h
            have h' : (Kind.map mp') = .map q := h
            cases h'
            exact ⟨by rw [f2], e2.trans hbs, e3.trans hmask, tr', I'⟩
          · intro o h; cases h
          · intro ms h q hq
            have h' : (SKind.map (mp.mappings ++ [⟨start, stop, dest, memif⟩])) = .map ms := h
            cases h'
            rcases List.mem_append.1 hq with hq | hq
            · exact ok.map _ hk' q hq
            · rw [List.mem_singleton.1 hq]
              exact ⟨l1, ⟨tsn, k2, b1⟩, Nat.dvd_of_mod_eq_zero b3, Nat.dvd_of_mod_eq_zero b4, Nat.dvd_of_mod_eq_zero b5, l3,
                by show dest + (stop - start) < wordSize; omega⟩

theorem rep_step (s : Sys) (t : Spec) (op : Op) (r : SRep s t) (hl : t.legal op) :
    SRep (step s op).1 (t.step op).1 ∧ (step s op).2 = (t.step op).2 := by
  cases op with
  | newObj lsb fill fsz size => exact newObj_sim r lsb fill fsz size hl
  | newObjNode o => exact newObjNode_sim r o
  | newMapNode bs total => exact newMapNode_sim r bs total hl
  | addMapping i start stop memif dest => exact addMapping_sim r i start stop memif dest hl
  | observe i a b =>
    refine ⟨⟨r.nObj, r.nNode, r.reads, r.writes, ?_, ?_, r.notes, r.dmis, r.objs, r.objLt, r.nodes, r.nodeLt, r.cfg, r.dmi⟩, rfl⟩
    · show upd s.obsR i a = upd t.obsR i a; rw [r.obsR]
    · show upd s.obsW i b = upd t.obsW i b; rw [r.obsW]
  | tryRead i a k =>
    obtain ⟨s', h1, h2⟩ := tryRead_sim (i + 1) i s t a k r (by omega) hl.1 hl.2
    unfold step Spec.step
    dsimp only
    rw [h1]
    cases h : (t.tryRead i a k).2 with
    | none => exact ⟨h2, rfl⟩
    | some d => exact ⟨h2, rfl⟩
  | tryWrite i a bs =>
    obtain ⟨s', h1, h2⟩ := tryWrite_sim (i + 1) i s t a bs r (by omega) hl.1 hl.2
    unfold step Spec.step
    dsimp only
    rw [h1]
    cases h : (t.tryWrite i a bs).2 with
    | false => exact ⟨h2, rfl⟩
    | true => exact ⟨h2, rfl⟩
  | tryPeek i a k =>
    have h1 := tryPeek_spec r (d := i + 1) (by omega) hl.1 hl.2
    unfold step Spec.step
    dsimp only
    rw [h1]
    cases t.tryPeek i a k with
    | none => exact ⟨r, rfl⟩
    | some d => exact ⟨r, rfl⟩
  | tryPoke i a bs =>
    obtain ⟨s', h1, h2⟩ := tryPoke_sim r (d := i + 1) (by omega) hl.1 hl.2
    unfold step Spec.step
    dsimp only
    rw [h1]
    cases h : (t.tryPoke i a bs).2 with
    | false => exact ⟨h2, rfl⟩
    | true => exact ⟨h2, rfl⟩
  | read i a k =>
    obtain ⟨s', h1, h2⟩ := tryRead_sim (i + 1) i s t a k r (by omega) hl.1 hl.2
    obtain ⟨sn, hn⟩ := Option.ne_none_iff_exists'.1 ((r.nodeLt i).2 hl.1)
    obtain ⟨n, g1, hr⟩ := r.node hn
    unfold step Spec.step
    dsimp only
    rw [h1, g1]
    cases h : (t.tryRead i a k).2 with
    | none =>
      dsimp only
      rw [accessError_sim r hn hr hl.2]
      exact ⟨h2, rfl⟩
    | some d => exact ⟨h2, rfl⟩
  | write i a bs =>
    obtain ⟨s', h1, h2⟩ := tryWrite_sim (i + 1) i s t a bs r (by omega) hl.1 hl.2
    obtain ⟨sn, hn⟩ := Option.ne_none_iff_exists'.1 ((r.nodeLt i).2 hl.1)
    obtain ⟨n, g1, hr⟩ := r.node hn
    unfold step Spec.step
    dsimp only
    rw [h1, g1]
    cases h : (t.tryWrite i a bs).2 with
    | false =>
      dsimp only
      rw [accessError_sim r hn hr hl.2]
      exact ⟨h2, rfl⟩
    | true => exact ⟨h2, rfl⟩
  | peek i a k =>
    have h1 := tryPeek_spec r (d := i + 1) (by omega) hl.1 hl.2
    obtain ⟨sn, hn⟩ := Option.ne_none_iff_exists'.1 ((r.nodeLt i).2 hl.1)
    obtain ⟨n, g1, hr⟩ := r.node hn
    unfold step Spec.step
    dsimp only
    rw [h1, g1]
    cases t.tryPeek i a k with
    | none =>
      dsimp only
      rw [debugError_sim r hn hr hl.2]
      exact ⟨r, rfl⟩
    | some d => exact ⟨r, rfl⟩
  | poke i a bs =>
    obtain ⟨s', h1, h2⟩ := tryPoke_sim r (d := i + 1) (by omega) hl.1 hl.2
    obtain ⟨sn, hn⟩ := Option.ne_none_iff_exists'.1 ((r.nodeLt i).2 hl.1)
    obtain ⟨n, g1, hr⟩ := r.node hn
    unfold step Spec.step
    dsimp only
    rw [h1, g1]
    cases h : (t.tryPoke i a bs).2 with
    | false =>
      dsimp only
      rw [debugError_sim r hn hr hl.2]
      exact ⟨h2, rfl⟩
    | true => exact ⟨h2, rfl⟩
  | getDMI i a k =>
    obtain ⟨sn, hn⟩ := Option.ne_none_iff_exists'.1 ((r.nodeLt i).2 hl.1)
    have hm : a % sn.bs + k < wordSize := by
      have h1 := Nat.mod_le a sn.bs
      have h2 := hl.2.1.2
      omega
    obtain ⟨s', h1, h2⟩ := getDMI_sim (i + 1) i s t sn a k r (by omega) hn hl.2.1.1 hm hl.2.2
    unfold step Spec.step
    dsimp only
    rw [h1]
    cases h : (t.getDMI i a k).2 with
    | none => exact ⟨h2, rfl⟩
    | some d => exact ⟨h2, rfl⟩
  | dmiRead h a k =>
    unfold step Spec.step
    dsimp only
    cases hx : t.dmis[h]? with
    | none =>
      have : dmiRead s h a k = none := by unfold dmiRead; rw [r.dmis, hx]
      rw [this]; exact ⟨r, rfl⟩
    | some x =>
      rw [dmiRead_sim r hx hl]
      dsimp only
      by_cases hc : x.covers a k = true
      · rw [if_pos hc, if_pos hc]; exact ⟨r, rfl⟩
      · rw [if_neg hc, if_neg hc]; exact ⟨r, rfl⟩
  | dmiWrite h a bs =>
    unfold step Spec.step
    dsimp only
    cases hx : t.dmis[h]? with
    | none =>
      have : dmiWrite s h a bs = none := by unfold dmiWrite; rw [r.dmis, hx]
      rw [this]; exact ⟨r, rfl⟩
    | some x =>
      obtain ⟨s', h1, h2⟩ := dmiWrite_sim r hx hl
      rw [h1]
      dsimp only
      cases hc : x.covers a bs.length with
      | true =>
        rw [hc, if_pos rfl] at h2
        rw [if_pos rfl]
        exact ⟨h2, rfl⟩
      | false =>
        rw [hc, if_neg (by simp)] at h2
        rw [if_neg (by simp)]
        exact ⟨h2, rfl⟩
  | invalidate i =>
    refine ⟨⟨r.nObj, r.nNode, r.reads, r.writes, r.obsR, r.obsW, r.notes, ?_, r.objs, r.objLt, r.nodes, r.nodeLt, r.cfg, ?_⟩, rfl⟩
    · show (invalidate s i).dmis = _
      unfold invalidate
      rw [r.dmis]; rfl
    · intro x hx
      have hx' : x ∈ t.dmis.map fun x => if x.node = i then { x with valid := false } else x := hx
      obtain ⟨y, hy, e⟩ := List.mem_map.1 hx'
      have hd := r.dmi y hy
      rw [← e]
      show DmiOk s.objs _
      split
      · exact hd
      · exact hd

end Sparta.MemIf
