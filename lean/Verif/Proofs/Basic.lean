import Verif.Model.Basic
import Mathlib.Logic.Basic

/-! # Lemmas about `Res`, `Run` and checked list access -/

namespace Bellframe

@[simp] theorem Res.ok_bind {α β : Type} (a : α) (f : α → Res β) :
    ((Except.ok a : Res α) >>= f) = f a := rfl

@[simp] theorem Res.error_bind {α β : Type} (e : Panic) (f : α → Res β) :
    ((Except.error e : Res α) >>= f) = Except.error e := rfl

@[simp] theorem Res.pure_eq {α : Type} (a : α) : (pure a : Res α) = Except.ok a := rfl

@[simp] theorem Res.throw_eq {α : Type} (e : Panic) : (throw e : Res α) = Except.error e := rfl

/-- A panic-or-value seen as a terminating run. -/
def Run.ofRes {α : Type} (r : Res α) : Run α := ExceptT.mk (some r)

@[simp] theorem Run.lift_eq {α : Type} (r : Res α) : (liftM r : Run α) = Run.ofRes r := rfl

@[simp] theorem Run.monadLift_eq {α : Type} (r : Res α) :
    (MonadLift.monadLift r : Run α) = Run.ofRes r := rfl

@[simp] theorem Run.ofRes_ok_bind {α β : Type} (a : α) (f : α → Run β) :
    (Run.ofRes (Except.ok a) >>= f) = f a := rfl

@[simp] theorem Run.ofRes_error_bind {α β : Type} (e : Panic) (f : α → Run β) :
    (Run.ofRes (Except.error e) >>= f) = Run.ofRes (Except.error e) := rfl

@[simp] theorem Run.pure_eq {α : Type} (a : α) : (pure a : Run α) = Run.ofRes (Except.ok a) := rfl

@[simp] theorem Run.returns_ofRes {α : Type} (r : Res α) (a : α) :
    Run.Returns (Run.ofRes r) a ↔ r = .ok a := by
  unfold Run.Returns Run.ofRes ExceptT.mk
  exact Option.some_inj

theorem Run.returns_iff {α : Type} (x : Run α) (a : α) :
    x.Returns a ↔ x = Run.ofRes (.ok a) := Iff.rfl

theorem Run.Returns.eq {α : Type} {x : Run α} {a : α} (h : x.Returns a) :
    x = Run.ofRes (.ok a) := h

theorem Run.returns_bind {α β : Type} {x : Run α} {a : α} (h : x.Returns a) (f : α → Run β) :
    (x >>= f) = f a := by
  rw [h.eq]; rfl

theorem Run.Returns.unique {α : Type} {x : Run α} {a b : α} (h : x.Returns a) (h' : x.Returns b) :
    a = b := by
  have := h.eq.symm.trans h'.eq
  injection Option.some.inj this

@[simp] theorem getIdx_of_lt {α : Type} (l : List α) (i : Nat) (h : i < l.length) :
    getIdx l i = .ok l[i] := by
  simp [getIdx, List.getElem?_eq_getElem h]

theorem getIdx_of_getElem? {α : Type} {l : List α} {i : Nat} {a : α} (h : l[i]? = some a) :
    getIdx l i = .ok a := by
  simp [getIdx, h]

theorem getIdx_of_le {α : Type} {l : List α} {i : Nat} (h : l.length ≤ i) :
    getIdx l i = .error .index := by
  simp [getIdx, List.getElem?_eq_none h]

theorem getIdx_eq_ok {α : Type} {l : List α} {i : Nat} {a : α} :
    getIdx l i = .ok a ↔ l[i]? = some a := by
  unfold getIdx
  split <;> simp_all

@[simp] theorem setIdx_of_lt {α : Type} (l : List α) (i : Nat) (a : α) (h : i < l.length) :
    setIdx l i a = .ok (l.set i a) := by
  simp [setIdx, h]

@[simp] theorem unwrap_some {α : Type} (a : α) : unwrap (some a) = .ok a := rfl
@[simp] theorem unwrap_none {α : Type} : unwrap (none : Option α) = .error .unwrap := rfl
@[simp] theorem unwrapResult_ok {ε α : Type} (a : α) :
    unwrapResult (Except.ok a : Except ε α) = .ok a := rfl
@[simp] theorem unwrapResult_error {ε α : Type} (e : ε) :
    unwrapResult (Except.error e : Except ε α) = .error .unwrap := rfl
@[simp] theorem assertThat_true : assertThat true = .ok () := rfl
@[simp] theorem assertThat_false : assertThat false = .error .assert := rfl

theorem mapM_res_eq_ok {α β : Type} {f : α → Res β} {g : α → β} :
    ∀ {l : List α}, (∀ a ∈ l, f a = .ok (g a)) → l.mapM f = .ok (l.map g)
  | [], _ => rfl
  | a :: l, h => by
    rw [List.mapM_cons, h a (by simp), mapM_res_eq_ok (l := l) (fun b hb => h b (by simp [hb]))]
    rfl

end Bellframe
