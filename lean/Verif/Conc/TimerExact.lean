import Verif.Conc.TimerProps

/-! C101, C113 and C114 exactly: when a call of `stop` or `notify` is lost, and when `_interval_ms` is raced for. -/

namespace Verif.Timer

/-- **C101, exactly:** a `stop` of a started timer can be undone by the thread, without a new `start`, if and only if it clears the flag
before the thread has set it or between the load and the store of line 139. -/
theorem C101_exact (ms : Nat) (s : St) (h : Reach ms s) (t : Nat) (hc : s.cpc t = .stopStore) (hi : s.pc ≠ .idle)
    (hm : ∀ u, s.mtx ≠ some (.client u)) :
    (∃ sched s2, .start ∉ sched ∧ exec s (.client t :: sched) = some s2 ∧ s2.isRunning = true) ↔ s.pc.listening = false := by
  have hs : step s (.client t) = some ({ s.c t .stopCallback with isRunning := false }.emit (.stopStored t)) := by
    simp [step, client, hc]
  constructor
  · rintro ⟨sched, s2, hn, he, hr⟩
    cases hl : s.pc.listening with
    | false => rfl
    | true =>
      obtain ⟨s1, e1, e2⟩ := C101_stops_partial ms s h t hc hl
      rw [exec_cons e1] at he
      rw [(e2 sched s2 hn he).1] at hr
      cases hr
  · intro hl
    have hown := own_inv h
    have hfree : (s.pc.owns = false) → s.mtx = none := by
      intro ho
      cases hmx : s.mtx with
      | none => rfl
      | some o =>
        cases o with
        | client u => exact absurd hmx (hm u)
        | thread => have := hown.1.2 hmx; rw [ho] at this; cases this
    have fin : ∀ sched, .start ∉ sched → (exec s (.client t :: sched)).map (·.isRunning) = some true →
        ∃ sched s2, .start ∉ sched ∧ exec s (.client t :: sched) = some s2 ∧ s2.isRunning = true := by
      intro sched hn he
      rw [Option.map_eq_some_iff] at he
      obtain ⟨s2, h1, h2⟩ := he
      exact ⟨sched, s2, hn, h1, h2⟩
    cases hp : s.pc <;> rw [hp] at hl hi hfree <;> simp only [Pc.listening, reduceCtorEq, ne_eq, not_true_eq_false] at hl hi
    case enter =>
      have hmt := hfree rfl
      refine fin (List.replicate 5 .thread) (by decide) ?_
      rw [exec_cons hs]
      cases hd : s.deleted <;> simp [List.replicate, exec, step, thread, St.goto, St.emit, St.c, hp, hmt, hd]
    case startLock =>
      have hmt := hfree rfl
      refine fin (List.replicate 4 .thread) (by decide) ?_
      rw [exec_cons hs]
      cases hd : s.deleted <;> simp [List.replicate, exec, step, thread, St.goto, St.emit, St.c, hp, hmt, hd]
    case startBody =>
      refine fin (List.replicate 3 .thread) (by decide) ?_
      rw [exec_cons hs]
      cases hd : s.deleted <;> simp [List.replicate, exec, step, thread, St.goto, St.emit, St.c, hp, hd]
    case startUnlock =>
      refine fin (List.replicate 2 .thread) (by decide) ?_
      rw [exec_cons hs]
      simp [List.replicate, exec, step, thread, St.goto, St.emit, St.c, hp]
    case setRunning =>
      refine fin (List.replicate 1 .thread) (by decide) ?_
      rw [exec_cons hs]
      simp [List.replicate, exec, step, thread, St.goto, St.emit, St.c, hp]
    case storeRunning b =>
      cases b with
      | false => simp at hl
      | true =>
        refine fin (List.replicate 1 .thread) (by decide) ?_
        rw [exec_cons hs]
        simp [List.replicate, exec, step, thread, St.goto, St.emit, St.c, hp]

example : ∃ s : St, Reach 100 s ∧ s.cpc 7 = .stopStore ∧ s.pc = .setRunning ∧ s.mtx = none :=
  ⟨_, ⟨[.start, .thread, .thread, .thread, .thread, .call 7 .stop], rfl⟩, rfl, rfl, rfl⟩

/-- **C113, exactly:** there is a race if and only if a client is about to write the interval while the thread is about to read it: at the
beginning of `run` (line 127) or when it computes the remaining time (lines 140, 143-144). -/
theorem C113_exact (s : St) (t : Nat) :
    Race s t ↔ (∃ ms, s.cpc t = .intervalStore ms) ∧ (s.pc = .enter ∨ s.pc = .setRem ∨ s.pc = .adjRem) := by
  unfold Race
  constructor
  · intro h
    refine ⟨C113_races_partial s t h, ?_⟩
    obtain ⟨w, w', h1, -, -⟩ := h
    cases hp : s.pc <;> rw [hp] at h1 <;> simp [Pc.accesses] at h1 ⊢
  · rintro ⟨⟨ms, h1⟩, h2⟩
    refine ⟨false, true, ?_, by simp [h1, CPc.accesses], .inr rfl⟩
    rcases h2 with h2 | h2 | h2 <;> simp [h2, Pc.accesses]

/-- **C113:** each of these moments is reached while a client is about to write. -/
theorem C113_reached : ∀ p ∈ [Pc.enter, .setRem, .adjRem], ∃ s : St, Reach 100 s ∧ s.pc = p ∧ Race s 7 := by
  intro p hp
  simp only [List.mem_cons, List.not_mem_nil, or_false] at hp
  have key : ∀ sched : List Act, ((exec (init 100) sched).map fun s => (s.pc, s.cpc 7)) = some (p, .intervalStore 5) →
      ∃ s : St, Reach 100 s ∧ s.pc = p ∧ Race s 7 := by
    intro sched h
    rw [Option.map_eq_some_iff] at h
    obtain ⟨s, h1, h2⟩ := h
    injection h2 with h2 h3
    exact ⟨s, ⟨sched, h1⟩, h2, (C113_exact s 7).2 ⟨⟨5, h3⟩, by rw [h2]; exact hp⟩⟩
  rcases hp with rfl | rfl | rfl
  · exact key [.start, .call 7 (.setInterval 5)] (by decide +kernel)
  · exact key ([.start] ++ List.replicate 9 .thread ++ [.tick 100000000, .timeout] ++ List.replicate 4 .thread ++
      [.ret 0, .thread, .thread, .thread, .call 7 (.setInterval 5)]) (by decide +kernel)
  · exact key ([.start] ++ List.replicate 9 .thread ++ [.wake] ++ List.replicate 3 .thread ++ [.call 7 (.setInterval 5)])
      (by decide +kernel)

/-- **C114, exactly:** a `notify` can be forgotten before any further call of `on_interval` if and only if it is set while
`on_interval` is being executed, or has just returned. -/
theorem C114_exact (s : St) (t : Nat) (hc : s.cpc t = .forcedStore) :
    (∃ sched s2, exec s (.client t :: sched) = some s2 ∧ intervals s2.log = intervals s.log ∧ s2.forced = false) ↔
      s.pc = .inCall ∨ s.pc = .clearForced := by
  have hs : step s (.client t) = some ({ s.c t .forcedNotify with forced := true }.emit (.notified t)) := by
    simp [step, client, hc]
  constructor
  · rintro ⟨sched, s2, he, hi, hf⟩
    cases hl : s.pc.clearing with
    | false =>
      obtain ⟨s1, e1, e2⟩ := C114_pending_partial s t hc hl
      rw [exec_cons e1] at he
      rw [(e2 sched s2 he hi).1] at hf
      cases hf
    | true => cases hp : s.pc <;> rw [hp] at hl <;> simp [Pc.clearing] at hl ⊢
  · have fin : ∀ sched, (exec s (.client t :: sched)).map (fun s => (intervals s.log, s.forced)) = some (intervals s.log, false) →
        ∃ sched s2, exec s (.client t :: sched) = some s2 ∧ intervals s2.log = intervals s.log ∧ s2.forced = false := by
      intro sched he
      rw [Option.map_eq_some_iff] at he
      obtain ⟨s2, h1, h2⟩ := he
      injection h2 with h2 h3
      exact ⟨sched, s2, h1, h2, h3⟩
    rintro (hp | hp)
    · refine fin [.ret 0, .thread] ?_
      rw [exec_cons hs]
      simp [exec, step, thread, St.goto, St.emit, St.c, hp, intervals]
    · refine fin [.thread] ?_
      rw [exec_cons hs]
      simp [exec, step, thread, St.goto, St.emit, St.c, hp, intervals]

example : ∃ s : St, Reach 100 s ∧ s.cpc 7 = .forcedStore ∧ s.pc = .enter := ⟨_, ⟨[.start, .call 7 .notify], rfl⟩, rfl, rfl⟩

end Verif.Timer
