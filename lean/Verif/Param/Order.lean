import Verif.Param.Stack
/-! Helper lemmas: callbacks that write through the ordered calls change later parameters only. -/
namespace Sparta.Param

def valAt (s : St) (j : Nat) : Option Val := (s.ps[j]?).map (·.val)

theorem valAt_put {s : St} {i j : Nat} {p : Param} (h : i < s.ps.length) : valAt (s.put i p) j = if i = j then some p.val else valAt s j := by
  unfold valAt
  rw [put_get _ _ _ _ h]
  split <;> rfl

theorem valAt_rollback {s : St} {i j : Nat} {v : Val} (h : i < s.ps.length) :
    valAt (s.rollback i v) j = if i = j then some v else valAt s j := by
  unfold valAt
  rw [rollback_get]
  split
  · rename_i e
    subst e
    rw [List.getElem?_eq_getElem h]
    rfl
  · rfl

theorem valAt_onSet (s : St) (o : Op) (j : Nat) : valAt (onSet s o).1 j = valAt s j := by
  obtain ⟨f, hf, e⟩ := onSet_get s o j
  unfold valAt
  rw [e]
  cases s.ps[j]? with
  | none => rfl
  | some p => simp [(hf p).1]

/-- what is known of the callback mechanism below the current call -/
structure Calm (inv : Inv) (s : St) (k : Nat) : Prop where
  keeps : ∀ p : Param, ∀ j, j ≤ k → valAt (inv (s.put k p) k).1 j = valAt (s.put k p) j
  len : ∀ p : Param, (inv (s.put k p) k).1.ps.length = s.ps.length
  refuses : mayBeModified s k = false → ∀ p : Param, inv (s.put k p) k = (s.put k p, some (.exn .sparta))

theorem settle_frame {inv : Inv} {s : St} {k : Nat} {p q : Param} {v : Val} (hc : Calm inv s k) (hp : s.ps[k]? = some q)
    (hq : p.val = q.val) {j : Nat} (hj : j < k ∨ mayBeModified s k = false) : valAt (settle inv s k p v).1 j = valAt s j := by
  have hk := lt_of_get hp
  have h0 : valAt s k = some p.val := by
    unfold valAt
    rw [hp, hq]
    rfl
  rcases hj with hj | hj
  · have hlen := hc.len { p with val := v }
    have h1 := hc.keeps { p with val := v } j (by omega)
    unfold settle
    split
    · rename_i e
      rw [e] at h1
      rw [h1, valAt_put hk, if_neg (by omega)]
    · rename_i e
      rw [e] at h1 hlen
      rw [valAt_rollback (by rw [hlen]; exact hk), if_neg (by omega), h1, valAt_put hk, if_neg (by omega)]
    · rename_i e
      rw [e] at h1
      rw [h1, valAt_put hk, if_neg (by omega)]
  · unfold settle
    rw [hc.refuses hj]
    dsimp only
    rw [valAt_rollback (by rw [put_len]; exact hk), valAt_put hk]
    split
    · rename_i e
      subst e
      exact h0.symm
    · rfl

theorem store_frame {inv : Inv} {s : St} {k : Nat} {p : Param} {v : Val} {pk : Bool} (hc : Calm inv s k) (hp : s.ps[k]? = some p)
    {j : Nat} (hj : j < k ∨ mayBeModified s k = false) : valAt (store inv s k p v pk).1 j = valAt s j := by
  unfold store
  split
  · exact settle_frame hc hp rfl hj
  · split
    · rfl
    · rename_i e
      exact settle_frame hc hp (by rw [countWrite_eq e]) hj

theorem setStr_frame {env : Env} {inv : Inv} {s : St} {k : Nat} {p : Param} {t : Str} {pk : Bool} (hc : Calm inv s k)
    (hp : s.ps[k]? = some p) {j : Nat} (hj : j < k ∨ mayBeModified s k = false) :
    valAt (setStr env inv s k p t pk).1 j = valAt s j := by
  unfold setStr
  split
  · rfl
  · split
    · rfl
    · split
      · rfl
      · exact store_frame hc hp hj

/-- a call that leaves the editing of single items, insertion, restoring, resizing and clearing aside -/
def Ordered (o : Op) : Prop := o.edits = false

theorem onTarget_frame {env : Env} {inv : Inv} {s : St} {k : Nat} {p : Param} {o : Op} (ho : Ordered o) (hc : Calm inv s k)
    (hp : s.ps[k]? = some p) {j : Nat} (hj : j < k ∨ mayBeModified s k = false) :
    valAt (onTarget env inv s k p o).1 j = valAt s j := by
  unfold onTarget
  split
  · unfold assign
    split
    · rfl
    · split
      · rfl
      · split
        · rfl
        · exact store_frame hc hp hj
  · exact setStr_frame hc hp hj
  · unfold setVec
    split
    · rfl
    · split
      · rfl
      · split
        · rfl
        · exact store_frame hc hp hj
  · exact setStr_frame hc hp hj
  · rename_i h
    unfold plain
    rw [valAt_put (lt_of_get hp)]
    split
    · rename_i e
      subst e
      rw [onParam_val env s k p o ho (fun j t e => h j t e)]
      unfold valAt
      rw [hp]
      rfl
    · rfl

theorem exec_frame {env : Env} {inv : Inv} {s : St} {o : Op} (ho : Ordered o) {m : Nat}
    (hc : ∀ k, k < s.ps.length → Calm inv s k) (hm : ∀ k, k < s.ps.length → k ≤ m → mayBeModified s k = false) :
    ∀ j, j ≤ m → valAt (exec env inv s o).1 j = valAt s j := by
  intro j hj
  unfold exec
  split
  · exact valAt_onSet _ _ _
  · rename_i k ht
    split
    · rfl
    · rename_i p hp
      have hk := lt_of_get hp
      refine onTarget_frame ho (hc k hk) hp ?_
      rcases Nat.lt_or_ge m k with h | h
      · exact Or.inl (by omega)
      · exact Or.inr (hm k hk h)

theorem mayBeModified_put (s : St) (k i : Nat) (p : Param) : mayBeModified (s.put k p) i = mayBeModified s i := by
  unfold mayBeModified
  rw [put_len]
  rfl

theorem calm_invoke {n f : Nat} {env : Env} {s : St} (h : Fine n s) {k : Nat} (hk : k < n) (hf : 1 ≤ f)
    (hfuel : mayBeModified s k = true → n < f + k)
    (hkeep : ∀ s', Fine n s' → (mayBeModified s' k = true → n < f + k) → ∀ j, j ≤ k → valAt (invoke env f s' k).1 j = valAt s' j) :
    Calm (invoke env f) s k := by
  have hfine : ∀ p, Fine n (s.put k p) := fun p => fine_of h (put_len _ _ _) rfl
  have hm : ∀ p, mayBeModified (s.put k p) k = true → n < f + k := fun p e => hfuel (by rw [← mayBeModified_put s k k p]; exact e)
  refine ⟨fun p => hkeep _ (hfine p) (hm p), ?_, ?_⟩
  · intro p
    rw [(invoke_out f _ k (hfine p) hk hf (hm p)).fine.len, h.len]
  · intro e p
    obtain ⟨g, rfl⟩ : ∃ g, f = g + 1 := ⟨f - 1, by omega⟩
    unfold invoke
    rw [mayBeModified_put, e]
    rfl

theorem runCb_frame {n i : Nat} {base : List Nat} {ex : St → Op → R} (hex : ∀ s o, Inside n i base s → OutE n s (ex s o))
    (hfr : ∀ s o, Ordered o → Inside n i base s → ∀ j, j ≤ i → valAt (ex s o).1 j = valAt s j) {c : Cb} (hc : Uses Ordered c) :
    ∀ s, Inside n i base s → ∀ j, j ≤ i → valAt (runCb ex c s).1 j = valAt s j := by
  have hin : ∀ s r, Inside n i base s → OutE n s r → Inside n i base r.1 := by
    intro s r h h1
    obtain ⟨e1, he1⟩ := h1.suf
    obtain ⟨e2, he2⟩ := h.suf
    exact ⟨h1.fine, e1 ++ e2, by rw [he1, he2, List.append_assoc]⟩
  induction hc with
  | done => exact fun s h j hj => rfl
  | raise e => exact fun s h j hj => rfl
  | call o k hB hk ih =>
    intro s h j hj
    have h1 := hfr s o hB h j hj
    have h2 := hin s _ h (hex s o h)
    unfold runCb
    split
    · rename_i e
      rw [e] at h1 h2
      rw [ih _ _ h2 j hj, h1]
    · rename_i e
      rw [e] at h1 h2
      rw [ih _ _ h2 j hj, h1]
    · rename_i e
      rw [e] at h1
      exact h1

theorem invoke_frame {n : Nat} {env : Env} (hh : ∀ n h, Uses Ordered (env.handler n h)) : ∀ f s i, Fine n s → i < n → 1 ≤ f →
    (mayBeModified s i = true → n < f + i) → ∀ j, j ≤ i → valAt (invoke env f s i).1 j = valAt s j
  | 0, _, _, _, _, h, _, _, _ => by omega
  | f + 1, s, i, h, hi, _, hf, j, hj => by
    unfold invoke
    split
    · rfl
    · rename_i hm
      have hm : mayBeModified s i = true := by simpa using hm
      have hf := hf hm
      have hm' := (mayBeModified_iff h hi).mp hm
      split
      · rfl
      · rename_i hd _
        have h0 : Inside n i s.stack { s with stack := i :: s.stack, calls := s.calls + 1 } := inside_push h hi hm'
        have hfuel : ∀ s', Inside n i s.stack s' → ∀ j s'', Fine n s'' → s''.stack = s'.stack → j < n → mayBeModified s'' j = true →
            n < f + j := by
          intro s' h' j s'' h'' hst hj hm2
          obtain ⟨t, ts, e, h3, _⟩ := inside_top h'
          have := (mayBeModified_iff h'' hj).mp hm2 t ts (hst.trans e)
          omega
        have hex : ∀ s' o, Inside n i s.stack s' → OutE n s' (exec env (invoke env f) s' o) :=
          fun s' o h' => exec_out (fun s'' j h'' hst hj => invoke_out f s'' j h'' hj (by omega) (hfuel s' h' j s'' h'' hst hj)) h'.fine
        have h1 := runCb_frame hex (fun s' o ho h' => by
          refine exec_frame ho ?_ ?_
          · intro k hk
            have hk : k < n := h'.fine.len ▸ hk
            exact calm_invoke h'.fine hk (by omega) (hfuel s' h' k s' h'.fine rfl hk)
              (fun s'' h'' hf2 j hj => invoke_frame hh f s'' k h'' hk (by omega) hf2 j hj)
          · intro k hk hki
            have hk : k < n := h'.fine.len ▸ hk
            obtain ⟨t, ts, e, h3, _⟩ := inside_top h'
            cases hmk : mayBeModified s' k with
            | false => rfl
            | true =>
              have := (mayBeModified_iff h'.fine hk).mp hmk t ts e
              omega) (hh s.calls hd) _ h0 j hj
        split
        · rename_i s' e
          rw [e] at h1
          unfold unlock
          split
          · exact h1
          · split
            · exact h1
            · exact h1
        · rename_i e
          rw [e] at h1
          exact h1

theorem calm_top {env : Env} (hh : ∀ n h, Uses Ordered (env.handler n h)) {s : St} (h : Fine s.ps.length s) {k : Nat}
    (hk : k < s.ps.length) : Calm (invoke env (s.ps.length + 1)) s k :=
  calm_invoke h hk (by omega) (fun _ => by omega)
    (fun s' h' hf j hj => invoke_frame hh _ s' k h' hk (by omega) hf j hj)

end Sparta.Param
