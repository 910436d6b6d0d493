import Verif.Checkpoint.Mem
/-! The tree of checkpoints: consistency of the links, and what erasing an element preserves. -/
namespace Sparta.Checkpoint
open Sparta.ArchData

structure Tree (chk : Map) (next : Nat) (head : Option Nat) : Prop where
  lt : ∀ id n, chk id = some n → id < next
  prevOk : ∀ id n p, chk id = some n → n.prev = some p →
    p < id ∧ ∃ m, chk p = some m ∧ id ∈ m.nexts ∧ m.tick ≤ n.tick
  nextOk : ∀ id n c, chk id = some n → c ∈ n.nexts → ∃ m, chk c = some m ∧ m.prev = some id
  nodup : ∀ id n, chk id = some n → n.nexts.Nodup
  root : ∀ id n, chk id = some n → n.prev = none → head = some id ∧ n.snap = true
  headIn : ∀ h, head = some h → ∃ n, chk h = some n ∧ n.prev = none

theorem Tree.child_gt {chk : Map} {next : Nat} {head : Option Nat} (t : Tree chk next head) {id c : Nat} {n : Node}
    (h : chk id = some n) (hc : c ∈ n.nexts) : id < c := by
  obtain ⟨m, hm, hp⟩ := t.nextOk id n c h hc
  exact (t.prevOk c m id hm hp).1

theorem adoptAll_spec (p : Nat) : ∀ (cs : List Nat) (chk : Map) (pn : Node), chk p = some pn → p ∉ cs → cs.Nodup →
    (∀ c ∈ cs, ∃ m, chk c = some m ∧ pn.tick ≤ m.tick ∧ c ∉ pn.nexts) →
    ∃ chk', adoptAll chk p cs = some chk' ∧ chk' p = some { pn with nexts := pn.nexts ++ cs } ∧
      (∀ c m, c ∈ cs → chk c = some m → chk' c = some { m with prev := some p }) ∧
      (∀ i, i ≠ p → i ∉ cs → chk' i = chk i) := by
  intro cs
  induction cs with
  | nil =>
    intro chk pn hp _ _ _
    exact ⟨chk, rfl, by rw [hp, List.append_nil], fun c m h => (by cases h), fun _ _ _ => rfl⟩
  | cons c cs ih =>
    intro chk pn hp hpc hn hc
    rw [List.mem_cons, not_or] at hpc
    rw [List.nodup_cons] at hn
    obtain ⟨m, hm, ht, hnx⟩ := hc c (List.mem_cons_self ..)
    have hpp : upd chk c (some { m with prev := some p }) p = some pn := by rw [upd_other _ _ hpc.1, hp]
    have hstep : adopt chk p c = some (upd (upd chk c (some { m with prev := some p })) p (some { pn with nexts := pn.nexts ++ [c] })) := by
      unfold adopt
      rw [hm]
      dsimp only
      rw [hpp]
      dsimp only
      rw [if_neg (by rintro (h | h); · omega
                     · exact hnx h)]
    obtain ⟨chk', h1, h2, h3, h4⟩ := ih (upd (upd chk c (some { m with prev := some p })) p (some { pn with nexts := pn.nexts ++ [c] }))
      { pn with nexts := pn.nexts ++ [c] } (by simp [upd]) hpc.2 hn.2 (by
        intro d hd
        obtain ⟨md, hmd, htd, hnd⟩ := hc d (List.mem_cons_of_mem _ hd)
        have hdp : d ≠ p := fun e => hpc.2 (e ▸ hd)
        have hdc : d ≠ c := fun e => hn.1 (e ▸ hd)
        refine ⟨md, by rw [upd_other _ _ hdp, upd_other _ _ hdc]; exact hmd, htd, ?_⟩
        intro h
        rcases List.mem_append.1 h with h | h
        · exact hnd h
        · exact hdc (List.mem_singleton.1 h))
    refine ⟨chk', ?_, ?_, ?_, ?_⟩
    · show (adopt chk p c).bind _ = _
      rw [hstep]
      exact h1
    · rw [h2]; simp
    · intro d md hd hmd
      rcases List.mem_cons.1 hd with e | hd'
      · subst e
        rw [hm] at hmd
        cases hmd
        rw [h4 d (fun e => hpc.1 e.symm) hn.1, upd_other _ _ (fun e => hpc.1 e.symm)]
        simp [upd]
      · have hdp : d ≠ p := fun e => hpc.2 (e ▸ hd')
        have hdc : d ≠ c := fun e => hn.1 (e ▸ hd')
        exact h3 d md hd' (by rw [upd_other _ _ hdp, upd_other _ _ hdc]; exact hmd)
    · intro i hip hic
      rw [List.mem_cons, not_or] at hic
      rw [h4 i hip hic.2, upd_other _ _ hip, upd_other _ _ hic.1]

/-- nothing but the links changed -/
structure SameNode (m m' : Node) : Prop where
  snap : m'.snap = m.snap
  deleted : m'.deleted = m.deleted
  tick : m'.tick = m.tick
  data : m'.data = m.data

theorem SameNode.refl (m : Node) : SameNode m m := ⟨rfl, rfl, rfl, rfl⟩

theorem SameNode.trans {a b c : Node} (h : SameNode a b) (g : SameNode b c) : SameNode a c :=
  ⟨g.snap.trans h.snap, g.deleted.trans h.deleted, g.tick.trans h.tick, g.data.trans h.data⟩

/-- erasing `e`: all others stay, and only the children of `e` get another previous checkpoint -/
structure Erased (chk chk' : Map) (e : Nat) (n : Node) : Prop where
  gone : chk' e = none
  keep : ∀ i m, i ≠ e → chk i = some m → ∃ m', chk' i = some m' ∧ SameNode m m' ∧
    ((m'.prev = m.prev ∧ m.prev ≠ some e) ∨ (m.prev = some e ∧ m'.prev = n.prev))
  back : ∀ i m', chk' i = some m' → i ≠ e ∧ ∃ m, chk i = some m

theorem erase_spec {chk : Map} {next : Nat} {head : Option Nat} (t : Tree chk next head) {e : Nat} {n : Node}
    (he : chk e = some n) (hh : head ≠ some e) :
    ∃ chk', erase chk e = some chk' ∧ Erased chk chk' e n ∧ Tree chk' next head := by
  rcases Option.eq_none_or_eq_some n.prev with hp | ⟨p, hp⟩
  · exact absurd (t.root e n he hp).1 hh
  · obtain ⟨hpe, pn, hpn, hmem, htick⟩ := t.prevOk e n p he hp
    have hpc : p ∉ n.nexts := fun h => by have := t.child_gt he h; omega
    have hec : e ∉ n.nexts := fun h => by have := t.child_gt he h; omega
    have hchild : ∀ c ∈ n.nexts, ∃ m, chk c = some m ∧ m.prev = some e ∧ c ≠ p ∧ c ≠ e ∧ n.tick ≤ m.tick := by
      intro c hc
      obtain ⟨m, hm, hmp⟩ := t.nextOk e n c he hc
      refine ⟨m, hm, hmp, fun h => hpc (h ▸ hc), fun h => hec (h ▸ hc), ?_⟩
      obtain ⟨_, m2, h2, _, h3⟩ := t.prevOk c m e hm hmp
      rw [he] at h2
      cases h2
      exact h3
    have hchildp : ∀ c ∈ n.nexts, c ∉ pn.nexts := by
      intro c hc hcp
      obtain ⟨m, hm, hmp, _⟩ := hchild c hc
      obtain ⟨m2, hm2, hmp2⟩ := t.nextOk p pn c hpn hcp
      rw [hm] at hm2
      cases hm2
      rw [hmp] at hmp2
      cases hmp2
      omega
    obtain ⟨chk', h1, h2, h3, h4⟩ := adoptAll_spec p n.nexts (upd chk p (some { pn with nexts := pn.nexts.erase e }))
      { pn with nexts := pn.nexts.erase e } (by simp [upd]) hpc (t.nodup e n he) (by
        intro c hc
        obtain ⟨m, hm, hmp, hcp, hce, htk⟩ := hchild c hc
        refine ⟨m, by rw [upd_other _ _ hcp]; exact hm, by dsimp only; omega, ?_⟩
        intro h
        exact hchildp c hc (List.mem_of_mem_erase h))
    -- values of the new map
    have v_e : upd chk' e none e = none := by simp [upd]
    have v_p : upd chk' e none p = some { pn with nexts := pn.nexts.erase e ++ n.nexts } := by
      rw [upd_other _ _ (by omega), h2]
    have v_c : ∀ c ∈ n.nexts, ∀ m, chk c = some m → upd chk' e none c = some { m with prev := some p } := by
      intro c hc m hm
      obtain ⟨_, _, _, hcp, hce, _⟩ := hchild c hc
      rw [upd_other _ _ hce]
      exact h3 c m hc (by rw [upd_other _ _ hcp]; exact hm)
    have v_o : ∀ i, i ≠ e → i ≠ p → i ∉ n.nexts → upd chk' e none i = chk i := by
      intro i h5 h6 h7
      rw [upd_other _ _ h5, h4 i h6 h7, upd_other _ _ h6]
    generalize hq : upd chk' e none = q at v_e v_p v_c v_o
    have hback : ∀ i m', q i = some m' → i ≠ e ∧ ∃ m, chk i = some m := by
      intro i m' hi
      have hie : i ≠ e := by intro h; rw [h, v_e] at hi; cases hi
      refine ⟨hie, ?_⟩
      by_cases hip : i = p
      · exact ⟨pn, hip ▸ hpn⟩
      · by_cases hic : i ∈ n.nexts
        · obtain ⟨m, hm, _⟩ := hchild i hic; exact ⟨m, hm⟩
        · rw [v_o i hie hip hic] at hi; exact ⟨m', hi⟩
    refine ⟨q, ?_, ⟨v_e, ?_, hback⟩, ?_, ?_, ?_, ?_, ?_, ?_⟩
    · unfold erase
      rw [he]
      dsimp only
      rw [hp]
      dsimp only
      rw [hpn]
      dsimp only
      rw [if_pos hmem, h1, ← hq]
      rfl
    · intro i m hie hm
      by_cases hip : i = p
      · subst hip
        rw [hpn] at hm
        cases hm
        refine ⟨_, v_p, ⟨rfl, rfl, rfl, rfl⟩, Or.inl ⟨rfl, ?_⟩⟩
        intro h
        have := (t.prevOk i pn e hpn h).1
        omega
      · by_cases hic : i ∈ n.nexts
        · obtain ⟨m2, hm2, hmp, _⟩ := hchild i hic
          rw [hm] at hm2
          cases hm2
          exact ⟨_, v_c i hic m hm, ⟨rfl, rfl, rfl, rfl⟩, Or.inr ⟨hmp, hp.symm⟩⟩
        · refine ⟨m, by rw [v_o i hie hip hic]; exact hm, SameNode.refl m, Or.inl ⟨rfl, ?_⟩⟩
          intro h
          obtain ⟨_, m2, h5, h6, _⟩ := t.prevOk i m e hm h
          rw [he] at h5
          cases h5
          exact hic h6
    · intro i m' hi
      obtain ⟨_, m, hm⟩ := hback i m' hi
      exact t.lt i m hm
    · -- previous links
      intro i m' r hi hr
      obtain ⟨hie, m, hm⟩ := hback i m' hi
      have key : ∀ r m2, chk r = some m2 → r ≠ e → r ≠ p → r ∉ n.nexts → i ∈ m2.nexts → m2.tick ≤ m'.tick →
          ∃ m3, q r = some m3 ∧ i ∈ m3.nexts ∧ m3.tick ≤ m'.tick :=
        fun r m2 a1 a2 a3 a4 a5 a6 => ⟨m2, by rw [v_o r a2 a3 a4]; exact a1, a5, a6⟩
      by_cases hic : i ∈ n.nexts
      · obtain ⟨m2, hm2, hmp, hcp, hce, htk⟩ := hchild i hic
        rw [hm] at hm2
        cases hm2
        rw [v_c i hic m hm] at hi
        cases hi
        cases hr
        have hgt := t.child_gt he hic
        refine ⟨by omega, _, v_p, List.mem_append_right _ hic, ?_⟩
        show pn.tick ≤ m.tick
        omega
      · have hmp : m'.prev = m.prev ∧ m'.tick = m.tick := by
          by_cases hip : i = p
          · subst hip
            rw [v_p] at hi
            cases hi
            rw [hpn] at hm
            cases hm
            exact ⟨rfl, rfl⟩
          · rw [v_o i hie hip hic, hm] at hi
            cases hi
            exact ⟨rfl, rfl⟩
        rw [hmp.1] at hr
        obtain ⟨a1, m2, a2, a3, a4⟩ := t.prevOk i m r hm hr
        refine ⟨a1, ?_⟩
        rw [hmp.2]
        have hre : r ≠ e := by
          intro h
          subst h
          rw [he] at a2
          cases a2
          exact hic a3
        by_cases hrp : r = p
        · subst hrp
          rw [hpn] at a2
          cases a2
          refine ⟨_, v_p, List.mem_append_left _ ((List.mem_erase_of_ne hie).2 a3), a4⟩
        · by_cases hrc : r ∈ n.nexts
          · exact ⟨_, v_c r hrc m2 a2, a3, a4⟩
          · exact ⟨m2, by rw [v_o r hre hrp hrc]; exact a2, a3, a4⟩
    · -- next links
      intro i m' c hi hc
      obtain ⟨hie, m, hm⟩ := hback i m' hi
      have old : ∀ m0, chk i = some m0 → c ∈ m0.nexts → c ≠ e → ∃ m2, q c = some m2 ∧ m2.prev = some i := by
        intro m0 hm0 hc0 hce
        obtain ⟨mc, hmc, hmcp⟩ := t.nextOk i m0 c hm0 hc0
        have hcn : c ∉ n.nexts := by
          intro h
          obtain ⟨m2, hm2, hm2p, _⟩ := hchild c h
          rw [hmc] at hm2
          cases hm2
          rw [hmcp] at hm2p
          cases hm2p
          exact hie rfl
        by_cases hcp : c = p
        · subst hcp
          rw [hpn] at hmc
          cases hmc
          exact ⟨_, v_p, hmcp⟩
        · exact ⟨mc, by rw [v_o c hce hcp hcn]; exact hmc, hmcp⟩
      by_cases hip : i = p
      · subst hip
        rw [v_p] at hi
        cases hi
        rcases List.mem_append.1 hc with h | h
        · have hce : c ≠ e := by
            intro hh
            subst hh
            have := (t.nodup _ _ hpn)
            exact absurd h (List.Nodup.not_mem_erase this)
          exact old pn hpn (List.mem_of_mem_erase h) hce
        · obtain ⟨mc, hmc, _⟩ := hchild c h
          exact ⟨_, v_c c h mc hmc, rfl⟩
      · have hnx : m'.nexts = m.nexts := by
          by_cases hic : i ∈ n.nexts
          · rw [v_c i hic m hm] at hi; cases hi; rfl
          · rw [v_o i hie hip hic, hm] at hi; cases hi; rfl
        rw [hnx] at hc
        refine old m hm hc ?_
        intro hce
        subst hce
        obtain ⟨m2, hm2, hm2p⟩ := t.nextOk i m c hm hc
        rw [he] at hm2
        cases hm2
        rw [hp] at hm2p
        cases hm2p
        exact hip rfl
    · intro i m' hi
      obtain ⟨hie, m, hm⟩ := hback i m' hi
      by_cases hip : i = p
      · subst hip
        rw [v_p] at hi
        cases hi
        show (pn.nexts.erase e ++ n.nexts).Nodup
        rw [List.nodup_append]
        refine ⟨List.Nodup.erase _ (t.nodup _ _ hpn), t.nodup _ _ he, ?_⟩
        intro a ha b hb hab
        subst hab
        exact hchildp a hb (List.mem_of_mem_erase ha)
      · by_cases hic : i ∈ n.nexts
        · rw [v_c i hic m hm] at hi; cases hi; exact (t.nodup _ m hm)
        · rw [v_o i hie hip hic, hm] at hi; cases hi; exact t.nodup _ _ hm
    · intro i m' hi hr
      obtain ⟨hie, m, hm⟩ := hback i m' hi
      by_cases hip : i = p
      · subst hip
        rw [v_p] at hi
        cases hi
        exact t.root i pn hpn hr
      · by_cases hic : i ∈ n.nexts
        · rw [v_c i hic m hm] at hi; cases hi; cases hr
        · rw [v_o i hie hip hic] at hi; exact t.root i m' hi hr
    · intro h hh'
      obtain ⟨m, hm, hmp⟩ := t.headIn h hh'
      have hie : h ≠ e := fun x => hh (x ▸ hh')
      by_cases hip : h = p
      · subst hip
        rw [hpn] at hm
        cases hm
        exact ⟨_, v_p, hmp⟩
      · have hic : h ∉ n.nexts := by
          intro hc
          obtain ⟨m2, hm2, hm2p, _⟩ := hchild h hc
          rw [hm] at hm2
          cases hm2
          rw [hmp] at hm2p
          cases hm2p
        exact ⟨m, by rw [v_o h hie hip hic]; exact hm, hmp⟩

end Sparta.Checkpoint
