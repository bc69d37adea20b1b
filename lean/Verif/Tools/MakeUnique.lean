import Verif.Common

/-!
Model of tools/memory.h: `make_unique`, and of a function call some of whose arguments are calls of it.

* `new T(args...)` allocates, which may fail, and constructs, which may throw; a constructor that throws gives the memory back (C++ [expr.new]).
* The constructor of `std::unique_ptr` does not throw, and its destructor deletes.
* The arguments of a function call are evaluated in any order.  Before C++17 the parts of different arguments may be interleaved, but a function
  that is called runs without interruption ([intro.execution]); the body of `make_unique` is one.
* When an argument throws, the arguments that already exist are destroyed.
-/

namespace Verif.MakeUnique

/-- What happens to a `new`: no memory, the constructor throws, or neither. -/
inductive Fate where
  | noMemory | throws | fine
deriving DecidableEq, Repr

/-- Memory: the addresses in use, with the objects that live there, and the next fresh address. -/
structure Mem where
  live : List (Nat × Nat)
  next : Nat
deriving DecidableEq, Repr

/-- `new T(args...)`: `fate v` is what happens when an object is made from the arguments `v`. -/
def Mem.new (fate : Nat → Fate) (m : Mem) (v : Nat) : Mem × Option Nat :=
  match fate v with
  | .noMemory => (m, none)
  | .throws => ({ m with next := m.next + 1 }, none)      -- allocated, constructed in vain, given back
  | .fine => (⟨(m.next, v) :: m.live, m.next + 1⟩, some m.next)

/-- `delete p`. -/
def Mem.delete (m : Mem) (p : Nat) : Mem := { m with live := m.live.filter (·.1 ≠ p) }

/-- The destructors of unique pointers. -/
def Mem.deleteAll (m : Mem) : List Nat → Mem
  | [] => m
  | p :: ps => (m.delete p).deleteAll ps

/-- memory.h:11-14 `make_unique<T>(args...)`: the address that the unique pointer owns, or `none` if an exception leaves the function. -/
def makeUnique (fate : Nat → Fate) (m : Mem) (v : Nat) : Mem × Option Nat := m.new fate v

/-- The evaluation of the arguments `make_unique<T>(v)…` of a call, in the order of the list.  The unique pointers that exist so far are destroyed
when one throws. -/
def arguments (fate : Nat → Fate) (m : Mem) (owned : List Nat) : List Nat → Mem × Option (List Nat)
  | [] => (m, some owned)
  | v :: vs =>
    match makeUnique fate m v with
    | (m, some p) => arguments fate m (p :: owned) vs
    | (m, none) => (m.deleteAll owned, none)

/-- One part of an argument `std::unique_ptr<T>(new T(v))`: the `new`, or the constructor of the unique pointer. -/
inductive Part where
  | new (v : Nat) | wrap (v : Nat)
deriving DecidableEq, Repr

/-- The evaluation of such arguments without `make_unique`, in a given interleaving of their parts; `raw` are the pointers without owner. -/
def parts (fate : Nat → Fate) (m : Mem) (raw : List (Nat × Nat)) (owned : List Nat) : List Part → Mem × Option (List Nat)
  | [] => (m, some owned)
  | .new v :: ps =>
    match m.new fate v with
    | (m, some p) => parts fate m ((v, p) :: raw) owned ps
    | (m, none) => (m.deleteAll owned, none)
  | .wrap v :: ps =>
    match raw.lookup v with
    | some p => parts fate m (raw.filter (·.1 ≠ v)) (p :: owned) ps
    | none => parts fate m raw owned ps

/-! ### C192 -/

/-- Addresses in use have been handed out. -/
def Mem.Ok (m : Mem) : Prop := ∀ x ∈ m.live, x.1 < m.next

theorem deleteAll_live (ps : List Nat) : ∀ m : Mem, (m.deleteAll ps).live = m.live.filter (fun x => x.1 ∉ ps) := by
  induction ps with
  | nil => intro m; exact (List.filter_eq_self.2 (by simp)).symm
  | cons p ps ih =>
    intro m
    rw [Mem.deleteAll, ih, Mem.delete, List.filter_filter]
    congr 1
    funext x
    simp only [List.mem_cons, not_or, ne_eq, Bool.decide_and, decide_not]
    rw [Bool.and_comm]

/-- What is in use after the evaluation: what was, and the objects of the unique pointers. -/
theorem arguments_spec (fate : Nat → Fate) (base : List (Nat × Nat)) (n : Nat) (hbase : ∀ x ∈ base, x.1 < n) (vs : List Nat) :
    ∀ (done owned : List Nat) (m : Mem), n ≤ m.next → owned.length = done.length → (∀ p ∈ owned, n ≤ p ∧ p < m.next) → owned.Nodup →
      m.live = (owned.zip done) ++ base →
      (∀ r, arguments fate m owned vs = r → (r.2 = none ↔ ∃ v ∈ vs, fate v ≠ .fine) ∧ (r.2 = none → r.1.live = base) ∧
        ∀ ps, r.2 = some ps → ps.Nodup ∧ ps.length = (vs.reverse ++ done).length ∧ (∀ p ∈ ps, n ≤ p) ∧
          r.1.live = (ps.zip (vs.reverse ++ done)) ++ base) := by
  induction vs with
  | nil =>
    intro done owned m hnm hl ho hn hm r hr
    subst hr
    refine ⟨by simp [arguments], by simp [arguments], ?_⟩
    intro ps hps
    simp only [arguments, Option.some.injEq] at hps
    subst hps
    exact ⟨hn, by simpa using hl, fun p hp => (ho p hp).1, by simpa [arguments] using hm⟩
  | cons v vs ih =>
    intro done owned m hnm hl ho hn hm r hr
    have hdel : ∀ k, (({ m with next := k } : Mem).deleteAll owned).live = base := by
      intro k
      rw [deleteAll_live]
      simp only [hm, List.filter_append]
      have e1 : (owned.zip done).filter (fun x => x.1 ∉ owned) = [] := by
        rw [List.filter_eq_nil_iff]
        intro x hx
        simp [(List.of_mem_zip hx).1]
      have e2 : base.filter (fun x => x.1 ∉ owned) = base := by
        rw [List.filter_eq_self]
        intro x hx
        simp only [decide_eq_true_eq]
        intro hmem
        have := hbase x hx
        have := (ho _ hmem).1
        omega
      rw [e1, e2, List.nil_append]
    unfold arguments makeUnique Mem.new at hr
    cases hf : fate v with
    | noMemory =>
      simp only [hf] at hr
      subst hr
      exact ⟨⟨fun _ => ⟨v, by simp, by rw [hf]; exact fun h => by cases h⟩, fun _ => rfl⟩, fun _ => hdel m.next, fun ps h => by cases h⟩
    | throws =>
      simp only [hf] at hr
      subst hr
      exact ⟨⟨fun _ => ⟨v, by simp, by rw [hf]; exact fun h => by cases h⟩, fun _ => rfl⟩, fun _ => hdel (m.next + 1), fun ps h => by cases h⟩
    | fine =>
      simp only [hf] at hr
      obtain ⟨h1, h2, h3⟩ := ih (v :: done) (m.next :: owned) ⟨(m.next, v) :: m.live, m.next + 1⟩ (by simp only; omega) (by simp [hl])
        (by
          intro p hp
          rcases List.mem_cons.1 hp with rfl | hp
          · exact ⟨hnm, by simp⟩
          · have := ho p hp
            exact ⟨this.1, by simp only; omega⟩)
        (List.nodup_cons.2 ⟨fun hmem => by have := (ho _ hmem).2; omega, hn⟩)
        (by simp [hm]) r hr
      refine ⟨?_, h2, ?_⟩
      · rw [h1]
        constructor
        · rintro ⟨w, hw, hne⟩
          exact ⟨w, by simp [hw], hne⟩
        · rintro ⟨w, hw, hne⟩
          rcases List.mem_cons.1 hw with rfl | hw
          · exact absurd hf hne
          · exact ⟨w, hw, hne⟩
      · intro ps hps
        have := h3 ps hps
        simpa using this

/-- The claim of C192: whatever is in use before, and whatever happens to each `new`, the evaluation of arguments that are calls of `make_unique`
throws exactly if one of the objects cannot be made; then nothing more is in use than before; and otherwise there is exactly one object for each
argument, made from that argument, each owned by one pointer, and no two pointers own the same. -/
def C192_statement : Prop :=
  ∀ (fate : Nat → Fate) (m : Mem) (vs : List Nat), m.Ok →
    ((arguments fate m [] vs).2 = none ↔ ∃ v ∈ vs, fate v ≠ .fine) ∧
    ((arguments fate m [] vs).2 = none → (arguments fate m [] vs).1.live = m.live) ∧
    ∀ ps, (arguments fate m [] vs).2 = some ps →
      ps.Nodup ∧ ps.length = vs.length ∧ (∀ p ∈ ps, ∀ x ∈ m.live, x.1 ≠ p) ∧
      (arguments fate m [] vs).1.live = ps.zip vs.reverse ++ m.live ∧
      ((arguments fate m [] vs).1.deleteAll ps).live = m.live

/-- C192.  `make_unique` leaks nothing: a call whose arguments are made by it either gets one owned object per argument, or throws and leaves the
memory as it was.  `fate` ranges over all ways in which allocations and constructors can fail, `vs` over all argument lists in any order. -/
theorem C192_make_unique : C192_statement := by
  intro fate m vs hm
  obtain ⟨h1, h2, h3⟩ := arguments_spec fate m.live m.next hm vs [] [] m (Nat.le_refl _) rfl (by simp) List.nodup_nil (by simp) _ rfl
  refine ⟨h1, h2, ?_⟩
  intro ps hps
  obtain ⟨a, b, c, d⟩ := h3 ps hps
  rw [List.append_nil] at b d
  have hfresh : ∀ p ∈ ps, ∀ x ∈ m.live, x.1 ≠ p := by
    intro p hp x hx e
    have := hm x hx
    have := c p hp
    omega
  refine ⟨a, by simpa using b, hfresh, d, ?_⟩
  rw [deleteAll_live, d, List.filter_append]
  have e1 : (ps.zip vs.reverse).filter (fun x => x.1 ∉ ps) = [] := by
    rw [List.filter_eq_nil_iff]
    intro x hx
    simp [(List.of_mem_zip hx).1]
  have e2 : m.live.filter (fun x => x.1 ∉ ps) = m.live := by
    rw [List.filter_eq_self]
    intro x hx
    simp only [decide_eq_true_eq]
    exact fun hmem => hfresh _ hmem x hx rfl
  rw [e1, e2, List.nil_append]

/-- Three arguments, the third constructor throws: the two objects that exist are deleted. -/
example : arguments (fun v => if v = 30 then .throws else .fine) ⟨[(0, 7)], 1⟩ [] [10, 20, 30] = (⟨[(0, 7)], 4⟩, none) := by decide +kernel

/-- Nothing fails: three objects with three owners. -/
example : arguments (fun _ => .fine) ⟨[(0, 7)], 1⟩ [] [10, 20, 30] =
    (⟨[(3, 30), (2, 20), (1, 10), (0, 7)], 4⟩, some [3, 2, 1]) := by decide +kernel

/-- Without `make_unique` the two `new` may both come before the owners: the object 10 stays in use for ever when the constructor of 20 throws. -/
theorem C192_without_leaks :
    parts (fun v => if v = 20 then .throws else .fine) ⟨[], 0⟩ [] [] [.new 10, .new 20, .wrap 10, .wrap 20] = (⟨[(0, 10)], 2⟩, none) := by
  decide +kernel

end Verif.MakeUnique
