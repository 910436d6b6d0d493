import Verif.Param.Basic
/-! Helper lemmas: calls on one parameter. -/
namespace Sparta.Param

/-- unfold a call on one parameter and consider all its branches -/
macro "branches" : tactic => `(tactic| (
  (try unfold finishOverride) <;> (try unfold overrideScalar) <;> (try unfold overrideVector) <;> (try unfold overrideItem) <;>
  (try unfold overrideScalar) <;>
  (try unfold writeItem) <;> (try unfold pushBack) <;> (try unfold restoreDefault) <;> (try unfold resizeValue) <;>
  (try unfold resizeDefault) <;> (try unfold readItem) <;> (try unfold readSize) <;> (try unfold numValues) <;>
  (try unfold readAt) <;> (try unfold makeVolatile) <;> (try unfold associate) <;> (try unfold addDep) <;> (try unfold touch) <;>
  (try dsimp only) <;> (repeat' split)))

theorem onParam_kind (env : Env) (s : St) (i : Nat) (p : Param) (o : Op) :
    (onParam env s i p o).1.dim = p.dim ∧ (onParam env s i p o).1.attr = p.attr ∧ (onParam env s i p o).1.str = p.str ∧
      (onParam env s i p o).1.ty = p.ty := by
  cases o <;> unfold onParam <;> branches <;>
    first
      | exact ⟨rfl, rfl, rfl, rfl⟩
      | (rename_i e; rw [countWrite_eq e]; exact ⟨rfl, rfl, rfl, rfl⟩)
      | (simp_all; done)

/-- the calls that change a value without going through a callback -/
def Op.edits : Op → Bool
  | .setItem _ (_ :: _) _ | .push _ _ | .restore _ | .resize _ _ | .clear _ => true
  | _ => false

/-- the calls that change a default -/
def Op.overrides : Op → Bool
  | .ovStr _ _ | .ovVec _ _ | .ovItem _ _ _ | .ovResize _ _ | .ovClear _ => true
  | _ => false

theorem onParam_val (env : Env) (s : St) (i : Nat) (p : Param) (o : Op) (h : o.edits = false)
    (h' : ∀ j t, o ≠ .setItem j [] t) : (onParam env s i p o).1.val = p.val := by
  cases o
  case setItem j is t =>
    cases is with
    | nil => exact absurd rfl (h' j t)
    | cons a b => cases h
  all_goals first | (cases h; done) | skip
  all_goals
    unfold onParam
    branches <;>
    first
      | exact rfl
      | (simp_all; done)

theorem onParam_dflt (env : Env) (s : St) (i : Nat) (p : Param) (o : Op) (h : o.overrides = false) :
    (onParam env s i p o).1.dflt = p.dflt ∧ (onParam env s i p o).1.ovr = p.ovr := by
  cases o
  all_goals first | (cases h; done) | skip
  all_goals
    unfold onParam
    branches <;>
    first
      | exact ⟨rfl, rfl⟩
      | (rename_i e; rw [countWrite_eq e]; exact ⟨rfl, rfl⟩)
      | (simp_all; done)

theorem onParam_frozen (env : Env) (s : St) (i : Nat) (p : Param) (o : Op) (h : allowed s.locked p = false)
    (h1 : o ≠ .clear i) (h2 : o ≠ .ovClear i) (ht : o.target = some i) :
    (onParam env s i p o).1.val = p.val ∧ (onParam env s i p o).1.dflt = p.dflt ∧ (onParam env s i p o).1.ovr = p.ovr := by
  cases o
  case clear j => injection ht with ht; subst ht; exact absurd rfl h1
  case ovClear j => injection ht with ht; subst ht; exact absurd rfl h2
  all_goals
    unfold onParam
    branches <;>
    first
      | exact ⟨rfl, rfl, rfl⟩
      | (simp_all; done)

theorem grow_dim {d i : Nat} {l : List Val} (h : l.all (hasDim d) = true) : (grow d i l).all (hasDim d) = true := by
  unfold grow
  rw [List.all_append, h, Bool.true_and, List.all_eq_true]
  intro v hv
  rw [List.eq_of_mem_replicate hv]
  cases d <;> rfl

theorem getD_dim {d i : Nat} {l : List Val} (h : l.all (hasDim d) = true) : hasDim d (l.getD i (zero d)) = true := by
  rw [List.getD_eq_getElem?_getD]
  cases e : l[i]? with
  | none =>
    cases d <;> rfl
  | some v => exact List.all_eq_true.mp h v (List.mem_of_getElem? e)

theorem set_dim {d i : Nat} {l : List Val} {v : Val} (h : l.all (hasDim d) = true) (hv : hasDim d v = true) :
    (l.set i v).all (hasDim d) = true := by
  rw [List.all_eq_true] at h ⊢
  intro w hw
  rcases List.mem_or_eq_of_mem_set hw with h' | h'
  · exact h w h'
  · rw [h']
    exact hv

theorem setIn_dim {c : Str → Except Exn Nat} {t : Str} : ∀ {d : Nat} {is : List Nat} {v : Val}, hasDim d v = true →
    hasDim d (setIn c t d is v).1 = true
  | d, [], v, h => by
    unfold setIn setFinal
    split
    · rename_i e
      subst e
      split
      · rfl
      · exact h
    · exact h
  | 0, _ :: _, v, h => h
  | d + 1, i :: is, .vec l, h => by
    have hl : l.all (hasDim d) = true := h
    exact set_dim (grow_dim hl) (setIn_dim (getD_dim (grow_dim hl)))
  | d + 1, i :: is, .leaf n, h => h

theorem resizeIn_dim : ∀ {d : Nat} {is : List Nat} {v : Val}, hasDim d v = true → hasDim d (resizeIn d is v).1 = true
  | 0, _, v, h => by unfold resizeIn; exact h
  | d + 1, [], v, h => h
  | d + 1, i :: is, .vec l, h => by
    have hl : l.all (hasDim d) = true := h
    exact set_dim (grow_dim hl) (resizeIn_dim (getD_dim (grow_dim hl)))
  | d + 1, i :: is, .leaf n, h => h

def Fits (p : Param) : Prop := hasDim p.dim p.val = true ∧ hasDim p.dim p.dflt = true

theorem cleared_dim {d : Nat} {v : Val} (h : hasDim d v = true) : hasDim d (cleared d v) = true := by
  unfold cleared
  split
  · exact h
  · cases d with
    | zero => contradiction
    | succ d => rfl

theorem overrideScalar_fits {env : Env} {b : Bool} {p : Param} {t : Str} (h : Fits p) : Fits (overrideScalar env b p t).1 := by
  unfold overrideScalar
  split
  · exact h
  · split
    · exact h
    · rename_i hd
      split
      · exact h
      · refine ⟨h.1, ?_⟩
        show hasDim p.dim _ = true
        rw [Decidable.not_not.mp hd]
        rfl

theorem overrideVector_fits {env : Env} {b : Bool} {p : Param} {ts : List Str} (h : Fits p) :
    Fits (overrideVector env b p ts).1 := by
  unfold overrideVector
  split
  · exact h
  · split
    · exact h
    · rename_i hd
      split
      · exact h
      · rename_i e
        refine ⟨h.1, ?_⟩
        show hasDim p.dim _ = true
        rw [Decidable.not_not.mp hd]
        exact castAll_dim e

theorem overrideItem_fits {env : Env} {b : Bool} {p : Param} {is : List Nat} {t : Str} (h : Fits p) :
    Fits (overrideItem env b p is t).1 := by
  unfold overrideItem
  split
  · exact overrideScalar_fits h
  · split
    · exact h
    · dsimp only
      split
      · exact ⟨h.1, setIn_dim h.2⟩
      · exact ⟨h.1, setIn_dim h.2⟩

theorem finishOverride_fits {b : Bool} {r : PR} (h : Fits r.1) : Fits (finishOverride b r).1 := by
  unfold finishOverride
  split
  · exact h
  · split
    · exact h
    · exact h

theorem pushBack_fits {ph : Nat} {b : Bool} {p : Param} {v : Val} (h : Fits p) : Fits (pushBack ph b p v).1 := by
  unfold pushBack
  split
  · rename_i d l hd hl
    split
    · rename_i hv
      split
      · exact h
      · split
        · exact h
        · rename_i e
          rw [countWrite_eq e]
          refine ⟨?_, h.2⟩
          have h1 := h.1
          rw [hd, hl] at h1
          show hasDim p.dim (.vec (l ++ [v])) = true
          rw [hd]
          show (l ++ [v]).all (hasDim d) = true
          rw [List.all_append, show l.all (hasDim d) = true from h1]
          simp [hv]
    · exact h
  · exact h

theorem restoreDefault_fits {ph : Nat} {b : Bool} {p : Param} (h : Fits p) : Fits (restoreDefault ph b p).1 := by
  unfold restoreDefault
  split
  · exact h
  · split
    · exact h
    · split
      · exact h
      · rename_i e
        rw [countWrite_eq e]
        exact ⟨h.2, h.2⟩

theorem resizeValue_fits {b : Bool} {p : Param} {is : List Nat} (h : Fits p) : Fits (resizeValue b p is).1 := by
  unfold resizeValue
  split
  · exact h
  · split
    · exact h
    · dsimp only
      split
      · exact ⟨resizeIn_dim h.1, h.2⟩
      · exact ⟨resizeIn_dim h.1, h.2⟩

theorem resizeDefault_fits {b : Bool} {p : Param} {is : List Nat} (h : Fits p) : Fits (resizeDefault b p is).1 := by
  unfold resizeDefault
  split
  · exact h
  · split
    · exact h
    · dsimp only
      split
      · exact ⟨h.1, resizeIn_dim h.2⟩
      · exact ⟨h.1, resizeIn_dim h.2⟩

theorem writeItem_fits {env : Env} {ph : Nat} {b : Bool} {p : Param} {is : List Nat} {t : Str} (h : Fits p) :
    Fits (writeItem env ph b p is t).1 := by
  unfold writeItem
  split
  · exact h
  · dsimp only
    split
    · exact ⟨setIn_dim h.1, h.2⟩
    · split
      · exact ⟨setIn_dim h.1, h.2⟩
      · rename_i e
        rw [countWrite_eq e]
        exact ⟨setIn_dim h.1, h.2⟩

theorem onParam_fits (env : Env) (s : St) (i : Nat) (p : Param) (o : Op) (h : Fits p) : Fits (onParam env s i p o).1 := by
  cases o
  case setItem => exact writeItem_fits h
  case push => exact pushBack_fits h
  case restore => exact restoreDefault_fits h
  case resize => exact resizeValue_fits h
  case ovStr => exact finishOverride_fits (overrideScalar_fits h)
  case ovVec => exact finishOverride_fits (overrideVector_fits h)
  case ovItem => exact finishOverride_fits (overrideItem_fits h)
  case ovResize => exact resizeDefault_fits h
  case clear => exact ⟨cleared_dim h.1, h.2⟩
  case ovClear => exact ⟨h.1, cleared_dim h.2⟩
  all_goals
    unfold Fits
    rw [(onParam_kind env s i p _).1, onParam_val env s i p _ rfl (fun j t e => by cases e), (onParam_dflt env s i p _ rfl).1]
    exact h

theorem onSet_get (s : St) (o : Op) (i : Nat) : ∃ f : Param → Param, (∀ p, (f p).val = p.val ∧ (f p).dflt = p.dflt ∧
    (f p).dim = p.dim ∧ (f p).attr = p.attr ∧ (f p).ovr = p.ovr ∧ (f p).vol = p.vol ∧ (o ≠ .resetReads → (f p).reads = p.reads)) ∧
    (onSet s o).1.ps[i]? = s.ps[i]?.map f := by
  cases o
  case resetReads => exact ⟨fun p => { p with reads := 0 }, fun p => ⟨rfl, rfl, rfl, rfl, rfl, rfl, fun h => absurd rfl h⟩, by simp [onSet]⟩
  case resetWrites => exact ⟨fun p => { p with writes := 0 }, fun p => ⟨rfl, rfl, rfl, rfl, rfl, rfl, fun h => rfl⟩, by simp [onSet]⟩
  case ignoreAll => exact ⟨fun p => { p with ignored := true }, fun p => ⟨rfl, rfl, rfl, rfl, rfl, rfl, fun h => rfl⟩, by simp [onSet]⟩
  all_goals
    refine ⟨id, fun p => ⟨rfl, rfl, rfl, rfl, rfl, rfl, fun h => rfl⟩, ?_⟩
    rw [Option.map_id]
    unfold onSet
    (try dsimp only)
    (repeat' split) <;> rfl

theorem onSet_len (s : St) (o : Op) : (onSet s o).1.ps.length = s.ps.length := by
  cases o
  all_goals first | exact rfl | exact List.length_map _ | (unfold onSet; dsimp only; (repeat' split) <;> rfl)

theorem onSet_stack (s : St) (o : Op) : (onSet s o).1.stack = s.stack := by
  cases o
  all_goals first | exact rfl | (unfold onSet; dsimp only; (repeat' split) <;> rfl)

theorem onSet_locked (s : St) (o : Op) (h : s.locked = true) : (onSet s o).1.locked = true := by
  cases o
  all_goals first | exact h | (unfold onSet; dsimp only; (repeat' split) <;> first | exact h | rfl)

theorem onSet_ok (s : St) (o : Op) : (onSet s o).2 ≠ .error .ub ∧ (onSet s o).2 ≠ .error .deep := by
  cases o
  case verifyAllRead =>
    unfold onSet
    dsimp only
    split <;> exact ⟨(fun h => by cases h), (fun h => by cases h)⟩
  case lockdown =>
    unfold onSet
    dsimp only
    split <;> exact ⟨(fun h => by cases h), (fun h => by cases h)⟩
  all_goals exact ⟨(fun h => by cases h), (fun h => by cases h)⟩

/-- every value has the type of its parameter -/
def Typed (s : St) : Prop := ∀ (i : Nat) p, s.ps[i]? = some p → Fits p

end Sparta.Param
