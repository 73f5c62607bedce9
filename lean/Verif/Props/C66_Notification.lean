import Verif.Model.Notification
/-!
# C66, C74: notifications
-/

namespace Aio
variable {α : Type}

/-- What a notification carries. -/
inductive Payload (α : Type) where
  | value (v : α)
  | exception (e : Err)
  | nothing

def Notif.payload : Notif α → Payload α
  | .next v => .value v
  | .error e => .exception e
  | .completed => .nothing

/-- Equality of payloads. -/
inductive Payload.Same (eqV : α → α → Bool) (eqE : Err → Err → Bool) : Payload α → Payload α → Prop where
  | value {a b} : eqV a b = true → Same eqV eqE (.value a) (.value b)
  | exception {a b} : eqE a b = true → Same eqV eqE (.exception a) (.exception b)
  | nothing : Same eqV eqE .nothing .nothing

/-- C66. Two notifications are equal iff they are of the same kind and carry equal payloads. -/
theorem C66_equality (eqV : α → α → Bool) (eqE : Err → Err → Bool) (a b : Notif α) :
    Notif.pyEq eqV eqE a b = true ↔ a.kind = b.kind ∧ a.payload.Same eqV eqE b.payload := by
  constructor
  · intro h
    cases a <;> cases b <;> simp [Notif.pyEq] at h <;> refine ⟨rfl, ?_⟩
    · exact .value h
    · exact .exception h
    · exact .nothing
  · rintro ⟨hk, hp⟩
    cases a <;> cases b <;> cases hk <;> cases hp <;> simp_all [Notif.pyEq]

/-- An equivalence, as far as the booleans are concerned. -/
structure IsEquiv {β : Type} (r : β → β → Bool) : Prop where
  refl : ∀ a, r a a = true
  symm : ∀ a b, r a b = true → r b a = true
  trans : ∀ a b c, r a b = true → r b c = true → r a c = true

/-- C66. It is an equivalence if the payloads' equalities are. -/
theorem C66_equivalence {eqV : α → α → Bool} {eqE : Err → Err → Bool} (hv : IsEquiv eqV) (he : IsEquiv eqE) :
    IsEquiv (Notif.pyEq eqV eqE) := by
  refine ⟨?_, ?_, ?_⟩
  · intro a; cases a <;> simp [Notif.pyEq, hv.refl, he.refl]
  · intro a b h
    cases a <;> cases b <;> simp [Notif.pyEq] at h ⊢
    · exact hv.symm _ _ h
    · exact he.symm _ _ h
  · intro a b c h1 h2
    cases a <;> cases b <;> simp [Notif.pyEq] at h1 <;> cases c <;> simp [Notif.pyEq] at h2 ⊢
    · exact hv.trans _ _ _ h1 h2
    · exact he.trans _ _ _ h1 h2

/-- C66. And not only then: it is as good as the payloads' equalities, no better. A payload that is not equal to itself
(NaN) makes a notification that is not equal to itself. -/
theorem C66_equivalence_only_if {eqV : α → α → Bool} {eqE : Err → Err → Bool} (h : IsEquiv (Notif.pyEq eqV eqE)) :
    IsEquiv eqV ∧ IsEquiv eqE :=
  ⟨⟨fun a => h.refl (.next a), fun a b => h.symm (.next a) (.next b), fun a b c => h.trans (.next a) (.next b) (.next c)⟩,
   ⟨fun a => h.refl (.error a), fun a b => h.symm (.error a) (.error b),
     fun a b c => h.trans (.error a) (.error b) (.error c)⟩⟩

example : IsEquiv (fun a b : Nat => a % 3 == b % 3) := ⟨by simp, by simp; omega, by simp; omega⟩
example : Notif.pyEq (fun a b : Nat => a % 3 == b % 3) (· == ·) (.next 1) (.next 4) = true := by decide
example : Notif.pyEq (fun a b : Nat => a % 3 == b % 3) (· == ·) (.next 1) (.next 5) = false := by decide
example : Notif.pyEq (fun a b : Nat => a == b) (· == ·) (.next 1) .completed = false := by decide

/-- C74. `accept` and `accept_observer` of a notification call the one callback of its kind, with its payload; an
`AsyncNotificationObserver` makes the same notification from the call, and the other way round. -/
theorem C74_round_trip (l : List (Notif α)) (k : List (Called α)) :
    (l.map Notif.accept).map Called.notification = l ∧ (k.map Called.notification).map Notif.accept = k := by
  constructor
  · rw [List.map_map]
    conv => rhs; rw [← List.map_id l]
    refine List.map_congr_left fun n _ => ?_
    cases n <;> rfl
  · rw [List.map_map]
    conv => rhs; rw [← List.map_id k]
    refine List.map_congr_left fun n _ => ?_
    cases n <;> rfl

/-- C74. The callback that is called is the one of the kind. -/
theorem C74_dispatch (n : Notif α) :
    (n.kind = .onNext ↔ ∃ v, n.accept = .asend v) ∧ (n.kind = .onError ↔ ∃ e, n.accept = .athrow e) ∧
    (n.kind = .onCompleted ↔ n.accept = .aclose) := by
  cases n <;> simp [Notif.kind, Notif.accept]

example : ([.next 1, .error (.user 0), .completed] : List (Notif Nat)).map Notif.accept =
    [.asend 1, .athrow (.user 0), .aclose] := rfl

end Aio
