import Verif.Common

/-!
random.h:34-116 called from several threads: each of the functions keeps its generator in a `static` variable and draws from it without a mutex.

Drawing a number reads the state of the generator and writes the next one; other threads may take steps in between. Threads are natural numbers.

Simplifications: sequentially consistent memory, one number is drawn per call, the initialisation of the static variables (which the language makes
safe) has happened. `σ` and `next` are the generator.
-/

namespace Verif.RandomThreads

variable {σ : Type} (next : σ → σ × Nat)

inductive Pc (σ : Type) where
  | idle
  | loaded (g : σ)

structure St (σ : Type) where
  gen : σ               -- random.h:39 `rng`
  pc  : Nat → Pc σ
  out : List Nat        -- the numbers returned

def St.init (g : σ) : St σ := ⟨g, fun _ => .idle, []⟩

/-- One step of thread `t` (random.h:43 `dist(rng)`): it begins the call and reads the state of the generator, or writes the next state and returns. -/
def step (s : St σ) (t : Nat) : St σ :=
  match s.pc t with
  | .idle => { s with pc := fun u => if u = t then .loaded s.gen else s.pc u }
  | .loaded g => ⟨(next g).1, fun u => if u = t then .idle else s.pc u, s.out ++ [(next g).2]⟩

def exec (s : St σ) : List Nat → St σ
  | [] => s
  | t :: l => exec (step next s t) l

/-- The first `n` numbers of the generator. -/
def draws : σ → Nat → List Nat
  | _, 0 => []
  | g, n + 1 => (next g).2 :: draws (next g).1 n

/-- The state after `n` numbers. -/
def after : σ → Nat → σ
  | g, 0 => g
  | g, n + 1 => after (next g).1 n

theorem draws_succ (g : σ) (n : Nat) : draws next g (n + 1) = draws next g n ++ [(next (after next g n)).2] := by
  induction n generalizing g with
  | zero => rfl
  | succ n ih => rw [draws, ih]; rfl

theorem after_succ (g : σ) (n : Nat) : after next g (n + 1) = (next (after next g n)).1 := by
  induction n generalizing g with
  | zero => rfl
  | succ n ih => rw [after, ih]; rfl

/-- Two calls are under way. -/
def Overlap (s : St σ) : Prop := ∃ t u g h, t ≠ u ∧ s.pc t = .loaded g ∧ s.pc u = .loaded h

/-- **C151, full statement.** Whatever the schedule, the numbers returned are those the generator produces, in their order. -/
def C151_statement : Prop :=
  ∀ (g : σ) (l : List Nat), (exec next (.init g) l).out = draws next g (exec next (.init g) l).out.length

/-- No call begins while another one is under way. -/
def Serial (s : St σ) : List Nat → Prop
  | [] => True
  | t :: l => (s.pc t = .idle → ∀ u, s.pc u = .idle) ∧ Serial (step next s t) l

structure Inv (g : σ) (s : St σ) : Prop where
  out : s.out = draws next g s.out.length
  gen : s.gen = after next g s.out.length
  loaded : ∀ t h, s.pc t = .loaded h → h = s.gen
  one : ∀ t u h h', s.pc t = .loaded h → s.pc u = .loaded h' → t = u

theorem Inv.step {g : σ} {s : St σ} (h : Inv next g s) (t : Nat) (hs : s.pc t = .idle → ∀ u, s.pc u = .idle) :
    Inv next g (step next s t) := by
  unfold RandomThreads.step
  cases hp : s.pc t with
  | idle =>
    have hall := hs hp
    refine ⟨h.out, h.gen, ?_, ?_⟩
    · intro u x hu
      simp only at hu
      split at hu
      · injection hu with hu; exact hu.symm
      · rw [hall u] at hu; cases hu
    · intro u v x y hu hv
      simp only at hu hv
      split at hu
      · split at hv
        · rename_i a b; exact a.trans b.symm
        · rw [hall v] at hv; cases hv
      · rw [hall u] at hu; cases hu
  | loaded x =>
    have hx := h.loaded t x hp
    have hg := h.gen
    refine ⟨?_, ?_, ?_, ?_⟩
    · simp only [List.length_append, List.length_singleton]
      rw [draws_succ, ← h.out, hx, hg]
    · simp only [List.length_append, List.length_singleton]
      rw [after_succ, hx, hg]
    · intro u y hu
      simp only at hu
      split at hu
      · cases hu
      · rename_i hne; exact absurd (h.one u t y x hu hp) hne
    · intro u v y z hu hv
      simp only at hu hv
      split at hu
      · cases hu
      · split at hv
        · cases hv
        · exact h.one u v y z hu hv

theorem Inv.exec {g : σ} (l : List Nat) : ∀ {s : St σ}, Inv next g s → Serial next s l → Inv next g (exec next s l) := by
  induction l with
  | nil => exact fun h _ => h
  | cons t l ih => exact fun h hs => ih (h.step next t hs.1) hs.2

theorem Inv.init (g : σ) : Inv next g (.init g) := ⟨rfl, rfl, (fun _ _ h => nomatch h), (fun _ _ _ _ h => nomatch h)⟩

/-- **C151, partial.** It holds when the calls do not overlap, and then no two threads access the generator at the same time. Missing: calls that
overlap. -/
theorem C151_serial_partial (g : σ) (l : List Nat) (h : Serial next (.init g) l) :
    (exec next (.init g) l).out = draws next g (exec next (.init g) l).out.length ∧ ¬ Overlap (exec next (.init g) l) := by
  have hi := (Inv.init next g).exec next l h
  exact ⟨hi.out, fun ⟨t, u, x, y, hne, h1, h2⟩ => hne (hi.one t u x y h1 h2)⟩

/-- C151 fails for every generator whose first two numbers differ: two threads that call at the same time get the same number (and race on the generator,
which is undefined). -/
theorem C151_counterexample (g : σ) (hg : (next g).2 ≠ (next (next g).1).2) :
    (exec next (.init g) [1, 2, 1, 2]).out = [(next g).2, (next g).2] ∧ Overlap (exec next (.init g) [1, 2]) ∧ ¬ C151_statement next := by
  refine ⟨rfl, ⟨1, 2, g, g, by decide, rfl, rfl⟩, fun h => ?_⟩
  have := h g [1, 2, 1, 2]
  simp [exec, step, St.init, draws] at this
  exact hg this

/-- A generator that counts. -/
example : (exec (fun g : Nat => (g + 1, g)) (.init 5) [1, 1, 2, 2, 1, 1]).out = [5, 6, 7] := by decide +kernel
example : (exec (fun g : Nat => (g + 1, g)) (.init 5) [1, 2, 1, 2]).out = [5, 5] := by decide +kernel

end Verif.RandomThreads
