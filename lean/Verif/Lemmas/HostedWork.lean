import Verif.Model.HostedWork
import Verif.Lemmas.HostedParts
import Verif.Lemmas.Work
/-!
# Async functions that take time on the `VirtualTimeEventLoop`
-/

namespace Aio.Work
variable {α β σ : Type} {o : Handler σ α β} {s0 : σ} {gone : Nat}

theorem host_lawful : (host (α := α) (β := β) (σ := σ)).Lawful (stage o s0 gone) where
  names := by intro s n _; exact .head _
  turn := by
    intro s n hd
    have alone : ∀ (s' : State α β σ) (n' : Unit) (w : Nat), n' ≠ n → (host.need s' n' = .until w → host.need s n' = .until w) := fun _ _ _ hne => absurd rfl hne
    obtain ⟨inbox, pc, now, sent⟩ := s
    cases pc with
    | waiting t =>
      cases inbox with
      | nil => exact ⟨by simp [host], _, rfl, alone _⟩
      | cons m rest => exact ⟨by simp [host, stage], _, rfl, alone _⟩
    | running k =>
      refine ⟨by simp [host, stage], ?_⟩
      cases k with
      | done r => cases r <;> exact ⟨_, rfl, alone _⟩
      | raise e => exact ⟨_, rfl, alone _⟩
      | wait d k => exact ⟨_, rfl, alone _⟩
      | call n k => exact ⟨_, rfl, alone _⟩
    | asleep due k =>
      have : due ≤ now := hd due rfl
      refine ⟨by simp [host, stage], { inbox, pc := .running k, now, sent }, ?_, alone _⟩
      simp [host, LTS.run, stage, step, this]
    | halted => exact ⟨by simp [host], _, rfl, alone _⟩
  event := by
    intro s e
    refine ⟨_, rfl, ?_⟩
    intro n w
    obtain ⟨inbox, pc, now, sent⟩ := s
    cases pc with
    | waiting t => cases inbox <;> simp [host]
    | _ => exact id
  tick := by
    intro s d hc
    have hc := hc ()
    refine ⟨{ s with now := s.now + d }, ?_, fun n => rfl⟩
    have hr : ready s d = false := by
      obtain ⟨inbox, pc, now, sent⟩ := s
      cases pc with
      | waiting t => cases inbox <;> simp [host] at hc; rfl
      | running k => exact hc.elim
      | asleep due k => simp only [ready, decide_eq_false_iff_not, Nat.not_lt]; exact hc
      | halted => rfl
    simp [stage, step, hr]

end Aio.Work
