import Verif.Conc.Thread

/-! C111 and C112 exactly: which calls of the owner can end the program, and when `_exit_code` is raced for. -/

namespace Verif.Thread

theorem fits {s : St} (h : Reach s) : Fits s := reach_ind (P := Fits) ⟨rfl, rfl, rfl, .inl rfl⟩ (fun _ _ _ => fits_step) h

/-- The phases in which there is a thread to be joined. -/
def Phase.pending : Phase → Bool
  | .starting | .executing | .returned _ => true
  | _ => false

/-- The handle is joinable from `start` to `join`. -/
theorem joinable_iff {s : St} (h : Reach s) (ho : s.opc = .idle) (hm : phase s.log ≠ .misused) :
    s.joinable = (phase s.log).pending := by
  have hf := fits h
  unfold Fits at hf
  cases hp : phase s.log <;> rw [hp] at hf hm <;> simp_all [Phase.pending]

/-- **C111, exactly, for `start`:** it ends the program if and only if the thread was started before and has not been joined since. -/
theorem C111_start_exact (s : St) (h : Reach s) (ho : s.opc = .idle) (hm : phase s.log ≠ .misused) :
    (exec s [.start, .spawn]).map (·.opc) = some (if (phase s.log).pending then .terminated else .idle) := by
  rw [← joinable_iff h ho hm]
  cases hj : s.joinable <;> simp [exec, step, ho, hj, St.emit]

/-- **C111, exactly, for the destructor:** a pure virtual function can be called after it if and only if the thread was started and has not
yet entered `run`. -/
theorem C111_dtor_exact (s s1 : St) (h : Reach s) (ho : s.opc = .idle) (hm : phase s.log ≠ .misused) (hs : step s .dtor = some s1) :
    (∃ sched s2, exec s1 sched = some s2 ∧ s2.tpc = .pureVirtual) ↔ phase s.log = .starting := by
  have hf := fits h
  have hno : s.tpc ≠ .pureVirtual := by
    have hd : s.tpc = .pureVirtual → s.derived = false ∧ s.opc ≠ .idle := by
      refine (reach_ind (P := fun s => (s.tpc = .pureVirtual → s.derived = false ∧ s.opc ≠ .idle) ∧
        (s.derived = false → s.opc ≠ .idle ∧ s.opc ≠ .spawn ∧ s.opc ≠ .join)) ⟨(fun e => by cases e), (fun e => by cases e)⟩ ?_ h).1
      intro s a s' ⟨g1, g2⟩ hs
      obtain ⟨code, joinable, derived, tpc, opc, log⟩ := s
      cases a <;> simp only [step] at hs
      case thread =>
        split at hs
        · injection hs with hs
          split at hs <;> subst hs <;> simp_all [St.emit]
        · injection hs with hs; subst hs; simp_all [St.emit]
        · cases hs
      case wait =>
        split at hs
        · split at hs
          · injection hs with hs; subst hs; simp_all [St.emit]
          · injection hs with hs; subst hs; simp_all [St.emit]
          · cases hs
        · cases hs
      all_goals
        split at hs
        · first
          | (cases hs; done)
          | (injection hs with hs
             first
             | (split at hs <;> subst hs <;> simp_all [St.emit]; done)
             | (subst hs; simp_all [St.emit]; done))
        · first
          | (cases hs; done)
          | (injection hs with hs; subst hs; simp_all [St.emit])
    exact fun e => (hd e).2 ho
  constructor
  · rintro ⟨sched, s2, he, hv⟩
    cases hp : phase s.log with
    | starting => rfl
    | misused => exact absurd hp hm
    | fresh | executing | returned v | joined v =>
      exfalso
      -- from here on the thread is past the call of `run`, and stays there
      have hi : s1.tpc ≠ .spawned ∧ s1.tpc ≠ .pureVirtual ∧ (s1.opc = .dtor ∨ s1.opc = .gone) := by
        unfold Fits at hf
        rw [hp] at hf
        simp only [step, ho, if_true] at hs
        injection hs with hs
        split at hs <;> subst hs <;> simp_all
        try (rcases hf with hf | hf <;> simp [hf.1])
      have key : ∀ (sched : List Act) (s s' : St), (s.tpc ≠ .spawned ∧ s.tpc ≠ .pureVirtual ∧ (s.opc = .dtor ∨ s.opc = .gone)) →
          exec s sched = some s' → s'.tpc ≠ .pureVirtual := by
        intro sched
        induction sched with
        | nil => intro s s' g hs; injection hs with hs; subst hs; exact g.2.1
        | cons a as ih =>
          intro s s' g hs
          cases h1 : step s a with
          | none => simp [exec, h1] at hs
          | some s1 =>
            simp only [exec, h1, Option.bind_some] at hs
            refine ih s1 s' ?_ hs
            obtain ⟨g1, g2, g3⟩ := g
            obtain ⟨code, joinable, derived, tpc, opc, log⟩ := s
            cases a <;> simp only [step] at h1 g1 g2 g3
            case thread =>
              split at h1
              · exact absurd rfl g1
              · injection h1 with h1; subst h1; exact ⟨(fun e => by cases e), (fun e => by cases e), g3⟩
              · cases h1
            case wait =>
              split at h1
              · split at h1
                · injection h1 with h1; subst h1; simp_all [St.emit]
                · injection h1 with h1; subst h1; simp_all [St.emit]
                · cases h1
              · cases h1
            all_goals
              split at h1
              · first
                | (cases h1; done)
                | (injection h1 with h1
                   first
                   | (split at h1 <;> subst h1 <;> simp_all [St.emit]; done)
                   | (subst h1; simp_all [St.emit]; done))
              · first
                | (cases h1; done)
                | (injection h1 with h1; subst h1; simp_all [St.emit])
      exact key sched s1 s2 hi he hv
  · intro hp
    unfold Fits at hf
    rw [hp] at hf
    obtain ⟨_, hf | ⟨hj, _, _, hf | hf⟩⟩ := hf
    · rw [ho] at hf; cases hf.1
    · refine ⟨[.thread], { s1 with tpc := .pureVirtual }, ?_, rfl⟩
      simp only [step, ho, hj, if_true] at hs
      injection hs with hs; subst hs
      simp [exec, step, hf]
    · exact absurd hf hno

/-- The destructor called one step later does no harm: `run` has been entered, and is waited for. -/
example : (exec init [.start, .spawn, .thread, .dtor, .ret 3, .thread, .wait]).map (fun s => (s.opc, s.tpc, s.code)) =
    some (.gone, .over, 3) := by decide +kernel

/-- **C112, exactly:** `_exit_code` is raced for between the return of `run` and the end of the thread, as long as the object exists. -/
theorem C112_exact (s : St) : Race s ↔ (∃ v, s.tpc = .store v) ∧ s.opc ≠ .gone := by
  unfold Race
  refine and_congr_right fun _ => ?_
  simp only [step]
  by_cases h : s.opc = .gone <;> simp [h]

/-- C112: the object always exists then, unless the thread was started twice: every return of `run` is a race with every observer. -/
theorem C112_always (s : St) (h : Reach s) (hm : phase s.log ≠ .misused) : Race s ↔ ∃ v, s.tpc = .store v := by
  rw [C112_exact]
  refine and_iff_left_of_imp ?_
  rintro ⟨v, hv⟩
  have hf := fits h
  unfold Fits at hf
  cases hp : phase s.log <;> rw [hp] at hf hm <;> simp_all

end Verif.Thread
