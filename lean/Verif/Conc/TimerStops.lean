import Verif.Conc.TimerProps

/-! C104 exactly: how often `on_stop` is called, and by whom. -/

namespace Verif.Timer

/-- Calls of `stop` by client `t` that have cleared `_is_running`. -/
def Spec.stopsOf (t : Nat) : List Event → Nat
  | [] => 0
  | .stopStored u :: l => stopsOf t l + if u = t then 1 else 0
  | _ :: l => stopsOf t l

/-- Calls of `on_stop` made by `stop` in client `t`. -/
def Spec.onStopsOf (t : Nat) : List Event → Nat
  | [] => 0
  | .stopOnStop u :: l => onStopsOf t l + if u = t then 1 else 0
  | _ :: l => onStopsOf t l

/-- Calls of `on_stop` made by `stop` in any client. -/
def Spec.foreignOnStops : List Event → Nat
  | [] => 0
  | .stopOnStop _ :: l => foreignOnStops l + 1
  | _ :: l => foreignOnStops l

/-- One for a client inside `stop`, between the store and the callback. -/
def Spec.midStop : CPc → Nat
  | .stopCallback => 1
  | _ => 0

open Spec

theorem stops_inv {ms : Nat} {s : St} (h : Reach ms s) (t : Nat) :
    stopsOf t s.log = onStopsOf t s.log + midStop (s.cpc t) := by
  refine reach_ind (P := fun s => stopsOf t s.log = onStopsOf t s.log + midStop (s.cpc t)) rfl ?_ h
  intro s a s' ih hs
  cases a with
  | thread =>
    simp only [step, thread] at hs
    cases hp : s.pc <;> rw [hp] at hs <;> simp only [reduceCtorEq] at hs
    all_goals first
      | (injection hs with hs; subst hs; exact ih)
      | (by_cases c : s.mtx = none
         · rw [if_pos c] at hs; injection hs with hs; subst hs; exact ih
         · rw [if_neg c] at hs; cases hs)
      | (injection hs with hs; subst hs
         by_cases c : s.deleted = true
         · rw [if_pos c]; exact ih
         · rw [if_neg c]; exact ih)
  | client u =>
    simp only [step, client] at hs
    by_cases e : t = u
    · subst e
      cases hp : s.cpc t <;> rw [hp] at hs ih <;> simp only [reduceCtorEq] at hs
      all_goals first
        | (injection hs with hs; subst hs
           simp only [St.emit, St.c, stopsOf, onStopsOf, if_true, midStop] at ih ⊢
           omega)
        | (by_cases c : s.mtx = none
           · rw [if_pos c] at hs; injection hs with hs; subst hs
             simp only [St.c, if_true, midStop] at ih ⊢
             omega
           · rw [if_neg c] at hs; cases hs)
    · have e' : ¬ u = t := fun h => e h.symm
      cases hp : s.cpc u <;> rw [hp] at hs <;> simp only [reduceCtorEq] at hs
      all_goals first
        | (injection hs with hs; subst hs
           simp only [St.emit, St.c, stopsOf, onStopsOf, if_neg e, if_neg e'] at ih ⊢
           omega)
        | (by_cases c : s.mtx = none
           · rw [if_pos c] at hs; injection hs with hs; subst hs
             simp only [St.c, if_neg e] at ih ⊢
             omega
           · rw [if_neg c] at hs; cases hs)
  | start =>
    simp only [step] at hs
    by_cases c : s.pc = .idle ∨ s.pc = .finished
    · rw [if_pos c] at hs; injection hs with hs; subst hs; exact ih
    · rw [if_neg c] at hs; cases hs
  | ret v =>
    simp only [step] at hs
    by_cases c : s.pc = .inCall
    · rw [if_pos c] at hs; injection hs with hs; subst hs; exact ih
    · rw [if_neg c] at hs; cases hs
  | timeout =>
    simp only [step] at hs
    by_cases c : s.pc = .waiting ∧ s.deadline ≤ s.now
    · rw [if_pos c] at hs; injection hs with hs; subst hs; exact ih
    · rw [if_neg c] at hs; cases hs
  | wake =>
    simp only [step] at hs
    by_cases c : s.pc = .waiting
    · rw [if_pos c] at hs; injection hs with hs; subst hs; exact ih
    · rw [if_neg c] at hs; cases hs
  | tick d => simp only [step, Option.some.injEq] at hs; subst hs; exact ih
  | adjust d => simp only [step, Option.some.injEq] at hs; subst hs; exact ih
  | call u op =>
    simp only [step] at hs
    by_cases c : s.cpc u = .idle
    · rw [if_pos c] at hs; injection hs with hs; subst hs
      simp only [St.c]
      by_cases e : t = u
      · subst e
        rw [c] at ih
        rw [if_pos rfl, ih]
        cases op <;> rfl
      · rw [if_neg e]; exact ih
    · rw [if_neg c] at hs; cases hs

theorem onStops_split : ∀ l : List Event, onStops l = ownOnStops l + foreignOnStops l
  | [] => rfl
  | e :: l => by
    have := onStops_split l
    cases e <;> simp only [onStops, ownOnStops, foreignOnStops] <;> omega

theorem foreign_zero : ∀ l : List Event, foreignOnStops l = 0 ↔ ∀ t, onStopsOf t l = 0
  | [] => by simp [foreignOnStops, onStopsOf]
  | e :: l => by
    have ih := foreign_zero l
    cases e with
    | stopOnStop u =>
      simp only [foreignOnStops, onStopsOf]
      constructor
      · intro h; omega
      · intro h
        have := h u
        rw [if_pos rfl] at this
        omega
    | _ => simpa only [foreignOnStops, onStopsOf] using ih

/-- C104, exactly: as long as no destructor has marked the object, the callback `on_stop` has been called, whenever the thread
is between two runs, once for each run and once more for each call of `stop` that got to its callback; and the calls of `stop`
by a client that cleared `_is_running` all got there, except for the one the client is executing now.  So `on_stop` was called
exactly once per run precisely when every call of `stop` so far is still about to make its callback. -/
theorem C104_exact (ms : Nat) (s : St) (h : Reach ms s) :
    (∀ t, stopsOf t s.log = onStopsOf t s.log + midStop (s.cpc t)) ∧
    (s.pc = .finished → ¬ Marked s.log →
      onStops s.log = runs s.log + foreignOnStops s.log ∧
      (onStops s.log = runs s.log ↔ ∀ t, stopsOf t s.log = midStop (s.cpc t))) := by
  refine ⟨stops_inv h, fun hf hm => ?_⟩
  have hl := (C104_thread_partial ms s h).2 hf
  have hc := C104_count_partial s.log hm _ hl
  have hs := onStops_split s.log
  have e : onStops s.log = runs s.log + foreignOnStops s.log := by
    simp only [reduceCtorEq, or_self, if_false] at hc
    omega
  refine ⟨e, ?_⟩
  constructor
  · intro h2 t
    have := (foreign_zero s.log).1 (by omega) t
    have := stops_inv h t
    omega
  · intro h2
    have : foreignOnStops s.log = 0 := (foreign_zero s.log).2 fun t => by
      have := h2 t
      have := stops_inv h t
      omega
    omega

/-- Two runs and two clients in `stop`, one of them before its callback: three calls of `on_stop`. -/
example : (exec (init 100) ([.start] ++ List.replicate 9 .thread ++ [.call 7 .stop, .client 7, .client 7, .wake] ++
      List.replicate 8 .thread ++ [.start] ++ List.replicate 9 .thread ++ [.call 8 .stop, .client 8, .wake] ++
      List.replicate 8 .thread)).map (fun s => (s.pc, [onStops s.log, runs s.log, foreignOnStops s.log,
        stopsOf 7 s.log, onStopsOf 7 s.log, midStop (s.cpc 7), stopsOf 8 s.log, onStopsOf 8 s.log, midStop (s.cpc 8)])) =
    some (.finished, [3, 2, 1, 1, 1, 0, 1, 0, 1]) := by decide +kernel

end Verif.Timer
