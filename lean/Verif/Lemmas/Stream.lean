import Verif.Spec.Stream
/-! Lemmas about the stream vocabulary. -/
namespace Aio.Spec
variable {α β : Type}

@[simp] theorem story_nil : story ([] : List (Notif α)) = ⟨[], .running⟩ := rfl
@[simp] theorem story_next (v : α) (ns) :
    story (.next v :: ns) = ⟨v :: (story ns).vals, (story ns).fin⟩ := rfl
@[simp] theorem story_error (e : Err) (ns : List (Notif α)) : story (.error e :: ns) = ⟨[], .failed e⟩ := rfl
@[simp] theorem story_completed (ns : List (Notif α)) : story (.completed :: ns) = ⟨[], .done⟩ := rfl

@[simp] theorem cut_nil : cut ([] : List (Notif α)) = [] := rfl
@[simp] theorem cut_next (v : α) (ns) : cut (.next v :: ns) = .next v :: cut ns := rfl
@[simp] theorem cut_error (e : Err) (ns : List (Notif α)) : cut (.error e :: ns) = [.error e] := rfl
@[simp] theorem cut_completed (ns : List (Notif α)) : cut (.completed :: ns) = [.completed] := rfl

@[simp] theorem events_vals_map (vs : List α) (f : End) :
    Story.events ⟨vs, f⟩ = vs.map .next ++ f.events := rfl

@[simp] theorem End.events_running : (End.running.events : List (Notif α)) = [] := rfl
@[simp] theorem End.events_failed (e) : ((End.failed e).events : List (Notif α)) = [.error e] := rfl
@[simp] theorem End.events_done : (End.done.events : List (Notif α)) = [.completed] := rfl

theorem story_map_next_append (vs : List α) (ns : List (Notif α)) :
    story (vs.map .next ++ ns) = ⟨vs ++ (story ns).vals, (story ns).fin⟩ := by
  induction vs with
  | nil => rfl
  | cons v vs ih => simp [ih]

@[simp] theorem story_events (s : Story α) : story s.events = s := by
  obtain ⟨vs, f⟩ := s
  rw [events_vals_map, story_map_next_append]
  cases f <;> simp

theorem grammar_cut (ns : List (Notif α)) : Grammar (cut ns) := ⟨_, rfl⟩

@[simp] theorem cut_cut (ns : List (Notif α)) : cut (cut ns) = cut ns := by simp [cut]

theorem cut_prefix (ns : List (Notif α)) : cut ns <+: ns := by
  induction ns with
  | nil => simp
  | cons n ns ih => cases n <;> simp [ih]

theorem cut_of_grammar {ns : List (Notif α)} (h : Grammar ns) : cut ns = ns := by
  obtain ⟨s, rfl⟩ := h; simp [cut]

theorem cut_mono {xs ys : List (Notif α)} (h : xs <+: ys) : cut xs <+: cut ys := by
  obtain ⟨zs, rfl⟩ := h
  induction xs with
  | nil => simp
  | cons n ns ih => cases n <;> simp [ih]

theorem grammar_iff_cut {ns : List (Notif α)} : Grammar ns ↔ cut ns = ns :=
  ⟨cut_of_grammar, fun h => h ▸ grammar_cut ns⟩

theorem grammar_prefix {xs ys : List (Notif α)} (h : xs <+: ys) (hy : Grammar ys) : Grammar xs := by
  obtain ⟨zs, rfl⟩ := h
  rw [grammar_iff_cut] at *
  induction xs with
  | nil => rfl
  | cons n ns ih => cases n <;> simp_all

/-- A sequence has ended iff its story has. -/
theorem story_append_of_ended {xs ys : List (Notif α)} (h : (story xs).fin ≠ .running) :
    story (xs ++ ys) = story xs := by
  induction xs with
  | nil => simp at h
  | cons n ns ih => cases n <;> simp_all

theorem story_append_of_running {xs ys : List (Notif α)} (h : (story xs).fin = .running) :
    story (xs ++ ys) = ⟨(story xs).vals ++ (story ys).vals, (story ys).fin⟩ := by
  induction xs with
  | nil => simp
  | cons n ns ih => cases n <;> simp_all

theorem running_eq_map {xs : List (Notif α)} (h : (story xs).fin = .running) :
    xs = (story xs).vals.map .next := by
  induction xs with
  | nil => rfl
  | cons n ns ih =>
    cases n with
    | next v => simpa using ih h
    | error e => simp at h
    | completed => simp at h

theorem cut_append_of_running {xs ys : List (Notif α)} (h : (story xs).fin = .running) :
    cut (xs ++ ys) = xs ++ cut ys := by
  induction xs with
  | nil => rfl
  | cons n ns ih => cases n <;> simp_all

theorem cut_append_of_ended {xs ys : List (Notif α)} (h : (story xs).fin ≠ .running) :
    cut (xs ++ ys) = cut xs := by
  simp [cut, story_append_of_ended h]

theorem grammar_snoc {xs : List (Notif α)} {n : Notif α} (h : Grammar (xs ++ [n])) :
    (story xs).fin = .running := by
  rw [grammar_iff_cut] at h
  induction xs with
  | nil => rfl
  | cons m xs ih =>
    cases m with
    | next v => simpa using ih (by simpa using h)
    | error e => simp at h
    | completed => simp at h

theorem story_snoc {xs : List (Notif α)} (n : Notif α) (h : (story xs).fin = .running) :
    story (xs ++ [n]) = ⟨(story xs).vals ++ (story [n]).vals, (story [n]).fin⟩ :=
  story_append_of_running h

end Aio.Spec
