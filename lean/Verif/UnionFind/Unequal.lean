import Verif.UnionFind.Props
import Verif.Cache.UnequalProps

/-!
`union_find_t` over elements whose `==` is not identity (structures/union_find.h), and C184: floating point elements, where NaN is not
equal to itself and -0.0 is equal to 0.0.

As `Verif/UnionFind/Model.lean`, but `==` is an arbitrary function, and `_items_id` (`std::unordered_map`) is the list of its entries, with
the look-ups of `Verif/Cache/Unequal.lean` (the hash function agrees with `==`, as the map requires).
-/

namespace Verif.UnionFind.Unequal
open Verif.UnionFind
open Verif.Cache.Unequal (lookup assign Per Fl ieeeEq ieee_per)
set_option linter.unusedSectionVars false

/-- union_find.h:16-20, as in Model.lean. -/
structure UFE (T : Type) where
  core : Core
  cnt : Counters
  ids : List (T × Nat)

namespace UFE
variable {T : Type} (eq : T → T → Bool)

/-- union_find.h:27 default constructor. -/
def new (compress : Bool) : UFE T := ⟨⟨[], [], compress⟩, ⟨0, 0⟩, []⟩

/-- union_find.h:91-93 `exists`. -/
def «exists» (s : UFE T) (key : T) : Bool := (lookup eq s.ids key).isSome

/-- union_find.h:54-66 `insert`. -/
def insert (s : UFE T) (elem : T) : UFE T × Bool :=
  if s.exists eq elem then (s, false)
  else
    let id := s.core.parent.length
    (⟨{ s.core with parent := s.core.parent ++ [id], rank := s.core.rank ++ [1] },
      ⟨(s.cnt.disjoint + 1) % W, (s.cnt.acorn + 1) % W⟩, assign eq s.ids elem id⟩, true)

/-- `_items_id.at(key)`: throws when absent (`operator[]` in `join_sets` is only used on present elements). -/
def idAt (s : UFE T) (key : T) : Res Nat :=
  match lookup eq s.ids key with
  | some i => .ok i
  | none => .exc .outOfRange

/-- union_find.h:111-115 `same_set`. -/
def sameSetElems (o : Bool) (s : UFE T) (a b : T) : Res (UFE T × Bool) :=
  if s.exists eq a && s.exists eq b then do
    let ia ← s.idAt eq a
    let ib ← s.idAt eq b
    let (c, r) ← sameSet o s.core ia ib
    .ok ({ s with core := c }, r)
  else .ok (s, false)

/-- union_find.h:138-143 `find_by_elem`. -/
def findByElem (s : UFE T) (a : T) : Res (UFE T × Nat) :=
  if !s.exists eq a then .ok (s, notFound)
  else do
    let ia ← s.idAt eq a
    let (c, r) ← UnionFind.find s.core ia
    .ok ({ s with core := c }, r)

/-- union_find.h:175-179 `join_sets`. -/
def joinSets (o1 o2 : Bool) (s : UFE T) (a b : T) : Res (UFE T × Bool) :=
  if s.exists eq a && s.exists eq b then do
    let ia ← s.idAt eq a
    let ib ← s.idAt eq b
    let (c, k, r) ← joinElems o1 o2 s.core s.cnt ia ib
    .ok ({ s with core := c, cnt := k }, r)
  else .ok (s, false)

/-- union_find.h:208-211 `size_of(const T&)`. -/
def sizeOfElem (s : UFE T) (a : T) : Res (UFE T × Nat) := do
  let (s, root) ← s.findByElem eq a
  if root ≠ notFound then do
    let k ← rd s.core.rank root
    .ok (s, k)
  else .ok (s, 0)

end UFE

/-- Calls by element. -/
inductive Op (T : Type) where
  | insert (x : T) | «exists» (x : T) | same (o : Bool) (a b : T) | join (o1 o2 : Bool) (a b : T) | find (a : T) | sizeOf (a : T)
  | disjoint | acorn

/-- Their results. -/
inductive Out where
  | bool (b : Bool) | num (n : Nat)
deriving DecidableEq, Repr

variable {T : Type}

def step (eq : T → T → Bool) (s : UFE T) : Op T → Res (UFE T × Out)
  | .insert x => .ok ((s.insert eq x).1, .bool (s.insert eq x).2)
  | .exists x => .ok (s, .bool (s.exists eq x))
  | .same o a b => do let (s, r) ← s.sameSetElems eq o a b; .ok (s, .bool r)
  | .join o1 o2 a b => do let (s, r) ← s.joinSets eq o1 o2 a b; .ok (s, .bool r)
  | .find a => do let (s, r) ← s.findByElem eq a; .ok (s, .num r)
  | .sizeOf a => do let (s, r) ← s.sizeOfElem eq a; .ok (s, .num r)
  | .disjoint => .ok (s, .num s.cnt.disjoint)
  | .acorn => .ok (s, .num s.cnt.acorn)

def run (eq : T → T → Bool) (s : UFE T) : List (Op T) → Res (UFE T × List Out)
  | [] => .ok (s, [])
  | op :: ops => do
    let (s, o) ← step eq s op
    let (s, os) ← run eq s ops
    .ok (s, o :: os)

/-- The same calls on the model with decidable identity. -/
def stepU [DecidableEq T] (s : UF T) : Op T → Res (UF T × Out)
  | .insert x => .ok ((s.insert x).1, .bool (s.insert x).2)
  | .exists x => .ok (s, .bool (s.exists x))
  | .same o a b => do let (s, r) ← s.sameSetElems o a b; .ok (s, .bool r)
  | .join o1 o2 a b => do let (s, r) ← s.joinSets o1 o2 a b; .ok (s, .bool r)
  | .find a => do let (s, r) ← s.findByElem a; .ok (s, .num r)
  | .sizeOf a => do let (s, r) ← s.sizeOfElem a; .ok (s, .num r)
  | .disjoint => .ok (s, .num s.cnt.disjoint)
  | .acorn => .ok (s, .num s.cnt.acorn)

def runU [DecidableEq T] (s : UF T) : List (Op T) → Res (UF T × List Out)
  | [] => .ok (s, [])
  | op :: ops => do
    let (s, o) ← stepU s op
    let (s, os) ← runU s ops
    .ok (s, o :: os)

/-! ### Specification -/

/-- `q` names the values of `==`: two elements are equal if and only if both have the same name; an element that is not equal to
itself has none. -/
def Spec.Names {Q : Type} (eq : T → T → Bool) (q : T → Option Q) : Prop :=
  ∀ a b, eq a b = true ↔ ∃ c, q a = some c ∧ q b = some c

/-- The element as the `i`-th call sees it: its name, or something that no other call mentions. -/
def Spec.tag {Q : Type} (q : T → Option Q) (i : Nat) (k : T) : Q ⊕ Nat :=
  match q k with
  | some c => .inl c
  | none => .inr i

/-- The `i`-th call with the elements replaced. -/
def Spec.tagOp {Q : Type} (q : T → Option Q) (i : Nat) : Op T → Op (Q ⊕ Nat)
  | .insert x => .insert (tag q i x)
  | .exists x => .exists (tag q i x)
  | .same o a b => .same o (tag q i a) (tag q i b)
  | .join o1 o2 a b => .join o1 o2 (tag q i a) (tag q i b)
  | .find a => .find (tag q i a)
  | .sizeOf a => .sizeOf (tag q i a)
  | .disjoint => .disjoint
  | .acorn => .acorn

/-- A history from the `i`-th call on. -/
def Spec.tagAll {Q : Type} (q : T → Option Q) : Nat → List (Op T) → List (Op (Q ⊕ Nat))
  | _, [] => []
  | i, op :: ops => tagOp q i op :: tagAll q (i + 1) ops

open Spec

/-- Every symmetric and transitive `==` has names. -/
theorem names_of_per {eq : T → T → Bool} (h : Per eq) :
    Names eq (fun a => if eq a a = true then some (eq a) else none) := by
  intro a b
  constructor
  · intro e
    have e' := h.symm e
    have ha := h.trans e e'
    have hb := h.trans e' e
    refine ⟨eq a, by simp [ha], ?_⟩
    have : eq b = eq a := by
      funext c
      rw [Bool.eq_iff_iff]
      exact ⟨fun hc => h.trans e hc, fun hc => h.trans e' hc⟩
    simp [hb, this]
  · rintro ⟨c, h1, h2⟩
    by_cases ha : eq a a = true
    · by_cases hb : eq b b = true
      · simp only [ha, hb, if_true, Option.some.injEq] at h1 h2
        rw [h1, ← h2]; exact hb
      · simp [hb] at h2
    · simp [ha] at h1

/-! ### Simulation -/

section
variable {Q : Type} [DecidableEq Q] {eq : T → T → Bool} {q : T → Option Q} (hq : Names eq q)

/-- State of the code and state of the model with names, before call `i`. -/
structure Rel (q : T → Option Q) (eq : T → T → Bool) (i : Nat) (s : UFE T) (u : UF (Q ⊕ Nat)) : Prop where
  core : s.core = u.core
  cnt : s.cnt = u.cnt
  named : ∀ k c, q k = some c → lookup eq s.ids k = u.ids (.inl c)
  fresh : ∀ j, i ≤ j → u.ids (.inr j) = none

include hq in
theorem lookup_unnamed {k : T} (hk : q k = none) (m : List (T × Nat)) : lookup eq m k = none := by
  unfold lookup
  rw [Option.map_eq_none_iff, List.find?_eq_none]
  intro e _ he
  obtain ⟨c, h1, -⟩ := (hq k e.1).1 he
  rw [hk] at h1; cases h1

include hq in
theorem rel_lookup {i : Nat} {s : UFE T} {u : UF (Q ⊕ Nat)} (h : Rel q eq i s u) (k : T) :
    lookup eq s.ids k = u.ids (tag q i k) := by
  unfold tag
  cases hk : q k with
  | none => rw [lookup_unnamed hq hk]; exact (h.fresh i (Nat.le_refl _)).symm
  | some c => exact h.named k c hk

theorem Rel.later {i : Nat} {s : UFE T} {u : UF (Q ⊕ Nat)} (h : Rel q eq i s u) (c : Core) (k : Counters) :
    Rel q eq (i + 1) { s with core := c, cnt := k } { u with core := c, cnt := k } :=
  ⟨rfl, rfl, h.named, fun j hj => h.fresh j (Nat.le_of_succ_le hj)⟩

theorem Rel.later' {i : Nat} {s : UFE T} {u : UF (Q ⊕ Nat)} (h : Rel q eq i s u) : Rel q eq (i + 1) s u :=
  ⟨h.core, h.cnt, h.named, fun j hj => h.fresh j (Nat.le_of_succ_le hj)⟩

include hq in
theorem rel_insert {i : Nat} {s : UFE T} {u : UF (Q ⊕ Nat)} (h : Rel q eq i s u) (x : T) :
    Rel q eq (i + 1) (s.insert eq x).1 (u.insert (tag q i x)).1 ∧ (s.insert eq x).2 = (u.insert (tag q i x)).2 := by
  have hl := rel_lookup hq h x
  have he : s.exists eq x = u.exists (tag q i x) := by unfold UFE.exists UF.exists; rw [hl]
  unfold UFE.insert UF.insert
  rw [he]
  by_cases c : u.exists (tag q i x) = true
  · rw [if_pos c, if_pos c]; exact ⟨h.later', rfl⟩
  · rw [if_neg c, if_neg c]
    refine ⟨⟨?_, ?_, ?_, ?_⟩, rfl⟩
    · simp only [h.core]
    · simp only [h.cnt]
    · intro k cn hk
      show lookup eq (assign eq s.ids x s.core.parent.length) k = if .inl cn = tag q i x then some u.core.parent.length else u.ids (.inl cn)
      have hn : (lookup eq s.ids x) = none := by
        rw [hl]; unfold UF.exists at c; simpa using c
      have hany : s.ids.any (fun e => eq x e.1) = false := by
        unfold lookup at hn
        rw [Option.map_eq_none_iff, List.find?_eq_none] at hn
        rw [List.any_eq_false]; exact hn
      unfold assign
      rw [hany]
      simp only [Bool.false_eq_true, if_false]
      by_cases hkx : eq k x = true
      · obtain ⟨c', h1, h2⟩ := (hq k x).1 hkx
        rw [hk] at h1; injection h1 with h1; subst h1
        rw [if_pos (by unfold tag; rw [h2])]
        simp [lookup, hkx, h.core]
      · rw [if_neg]
        · rw [← h.named k cn hk]
          simp [lookup, hkx]
        · intro e
          unfold tag at e
          cases hx : q x with
          | none => rw [hx] at e; cases e
          | some c' =>
            rw [hx] at e; injection e with e
            exact hkx ((hq k x).2 ⟨cn, hk, by rw [hx, e]⟩)
    · intro j hj
      show (if .inr j = tag q i x then some u.core.parent.length else u.ids (.inr j)) = none
      rw [if_neg]
      · exact h.fresh j (by omega)
      · intro e
        unfold tag at e
        cases hx : q x with
        | none => rw [hx] at e; injection e with e; omega
        | some c' => rw [hx] at e; cases e

/-- Both calls fail in the same way, or both succeed with the same result in related states. -/
def Agree (q : T → Option Q) (eq : T → T → Bool) (i : Nat) {R : Type} (a : Res (UFE T × R)) (b : Res (UF (Q ⊕ Nat) × R)) : Prop :=
  match a, b with
  | .ok (s, r), .ok (u, r') => Rel q eq i s u ∧ r = r'
  | .ub, .ub => True
  | .exc e, .exc e' => e = e'
  | _, _ => False

theorem Agree.map {i : Nat} {R R' : Type} {a : Res (UFE T × R)} {b : Res (UF (Q ⊕ Nat) × R)} (h : Agree q eq i a b) (f : R → R') :
    Agree q eq i (do let (s, r) ← a; .ok (s, f r)) (do let (s, r) ← b; .ok (s, f r)) := by
  cases a with
  | ok x =>
    cases b with
    | ok y => obtain ⟨h1, h2⟩ := h; exact ⟨h1, by rw [h2]⟩
    | exc e => exact h.elim
    | ub => exact h.elim
  | exc e => cases b with
    | ok y => exact h.elim
    | exc e => exact h
    | ub => exact h.elim
  | ub => cases b with
    | ok y => exact h.elim
    | exc e => exact h.elim
    | ub => exact h

include hq in
theorem agree_same {i : Nat} {s : UFE T} {u : UF (Q ⊕ Nat)} (h : Rel q eq i s u) (o : Bool) (a b : T) :
    Agree q eq (i + 1) (s.sameSetElems eq o a b) (u.sameSetElems o (tag q i a) (tag q i b)) := by
  have ha := rel_lookup hq h a
  have hb := rel_lookup hq h b
  unfold UFE.sameSetElems UF.sameSetElems UFE.exists UF.exists UFE.idAt UF.idAt
  rw [ha, hb, h.core]
  cases u.ids (tag q i a) with
  | none => exact ⟨h.later', rfl⟩
  | some ia =>
    cases u.ids (tag q i b) with
    | none => exact ⟨h.later', rfl⟩
    | some ib =>
      simp only [Option.isSome_some, Bool.and_self, if_true, Res.bind_ok]
      cases sameSet o u.core ia ib with
      | ok x => exact ⟨⟨rfl, h.cnt, h.later'.named, h.later'.fresh⟩, rfl⟩
      | exc e => exact rfl
      | ub => trivial

include hq in
theorem agree_find {i : Nat} {s : UFE T} {u : UF (Q ⊕ Nat)} (h : Rel q eq i s u) (a : T) :
    Agree q eq (i + 1) (s.findByElem eq a) (u.findByElem (tag q i a)) := by
  have ha := rel_lookup hq h a
  unfold UFE.findByElem UF.findByElem UFE.exists UF.exists UFE.idAt UF.idAt
  rw [ha, h.core]
  cases u.ids (tag q i a) with
  | none => exact ⟨h.later', rfl⟩
  | some ia =>
    simp only [Option.isSome_some, Bool.not_true, Bool.false_eq_true, if_false, Res.bind_ok]
    cases UnionFind.find u.core ia with
    | ok x => exact ⟨⟨rfl, h.cnt, h.later'.named, h.later'.fresh⟩, rfl⟩
    | exc e => exact rfl
    | ub => trivial

include hq in
theorem agree_join {i : Nat} {s : UFE T} {u : UF (Q ⊕ Nat)} (h : Rel q eq i s u) (o1 o2 : Bool) (a b : T) :
    Agree q eq (i + 1) (s.joinSets eq o1 o2 a b) (u.joinSets o1 o2 (tag q i a) (tag q i b)) := by
  have ha := rel_lookup hq h a
  have hb := rel_lookup hq h b
  unfold UFE.joinSets UF.joinSets UFE.exists UF.exists UFE.idAt UF.idAt
  rw [ha, hb, h.core, h.cnt]
  cases u.ids (tag q i a) with
  | none => exact ⟨h.later', rfl⟩
  | some ia =>
    cases u.ids (tag q i b) with
    | none => exact ⟨h.later', rfl⟩
    | some ib =>
      simp only [Option.isSome_some, Bool.and_self, if_true, Res.bind_ok]
      cases joinElems o1 o2 u.core u.cnt ia ib with
      | ok x => exact ⟨⟨rfl, rfl, h.later'.named, h.later'.fresh⟩, rfl⟩
      | exc e => exact rfl
      | ub => trivial

include hq in
theorem agree_sizeOf {i : Nat} {s : UFE T} {u : UF (Q ⊕ Nat)} (h : Rel q eq i s u) (a : T) :
    Agree q eq (i + 1) (s.sizeOfElem eq a) (u.sizeOfElem (tag q i a)) := by
  have hf := agree_find hq h a
  unfold UFE.sizeOfElem UF.sizeOfElem
  cases h1 : s.findByElem eq a with
  | ok x =>
    cases h2 : u.findByElem (tag q i a) with
    | ok y =>
      rw [h1, h2] at hf
      obtain ⟨s', r⟩ := x
      obtain ⟨u', r'⟩ := y
      obtain ⟨g1, g2⟩ := hf
      subst g2
      simp only [Res.bind_ok]
      by_cases c : r ≠ notFound
      · rw [if_pos c, if_pos c, g1.core]
        cases rd u'.core.rank r with
        | ok k => exact ⟨g1, rfl⟩
        | exc e => exact rfl
        | ub => trivial
      · rw [if_neg c, if_neg c]; exact ⟨g1, rfl⟩
    | exc e => rw [h1, h2] at hf; exact hf.elim
    | ub => rw [h1, h2] at hf; exact hf.elim
  | exc e =>
    cases h2 : u.findByElem (tag q i a) with
    | ok y => rw [h1, h2] at hf; exact hf.elim
    | exc e' => rw [h1, h2] at hf; exact hf
    | ub => rw [h1, h2] at hf; exact hf.elim
  | ub =>
    cases h2 : u.findByElem (tag q i a) with
    | ok y => rw [h1, h2] at hf; exact hf.elim
    | exc e' => rw [h1, h2] at hf; exact hf.elim
    | ub => trivial

include hq in
theorem agree_step {i : Nat} {s : UFE T} {u : UF (Q ⊕ Nat)} (h : Rel q eq i s u) (op : Op T) :
    Agree q eq (i + 1) (step eq s op) (stepU u (tagOp q i op)) := by
  cases op with
  | insert x =>
    obtain ⟨h1, h2⟩ := rel_insert hq h x
    exact ⟨h1, by rw [h2]⟩
  | «exists» x =>
    refine ⟨h.later', ?_⟩
    unfold UFE.exists UF.exists; rw [rel_lookup hq h x]
  | same o a b => exact (agree_same hq h o a b).map Out.bool
  | join o1 o2 a b => exact (agree_join hq h o1 o2 a b).map Out.bool
  | find a => exact (agree_find hq h a).map Out.num
  | sizeOf a => exact (agree_sizeOf hq h a).map Out.num
  | disjoint => exact ⟨h.later', by rw [h.cnt]⟩
  | acorn => exact ⟨h.later', by rw [h.cnt]⟩

/-- A history by element of the model with names leads to a state as in C18. -/
theorem runU_reach (ops : List (Op T)) [DecidableEq T] : ∀ {u : UF T} {K E}, UFReach u K E → K.length + ops.length + 1 < W →
    ∃ u' os K' E', runU u ops = .ok (u', os) ∧ UFReach u' K' E' := by
  induction ops with
  | nil => intro u K E h _; exact ⟨u, [], K, E, rfl, h⟩
  | cons op ops ih =>
    intro u K E h hW
    simp only [List.length_cons] at hW
    obtain ⟨-, -, c3, c4, c5, c6, -⟩ := C18_elements h
    have done : ∀ {u' : UF T} {o : Out} {K' E'}, stepU u op = .ok (u', o) → UFReach u' K' E' → K'.length ≤ K.length + 1 →
        ∃ u' os K' E', runU u (op :: ops) = .ok (u', os) ∧ UFReach u' K' E' := by
      intro u' o K' E' e h' hl
      obtain ⟨u2, os, K2, E2, e2, h2⟩ := ih h' (by omega)
      exact ⟨u2, o :: os, K2, E2, by simp only [runU, e, Res.bind_ok, e2], h2⟩
    cases op with
    | insert x =>
      refine done rfl (.insert x (by omega) h) ?_
      by_cases c : x ∈ K
      · rw [if_pos c]; omega
      · rw [if_neg c]; exact Nat.le_refl _
    | «exists» x => exact done rfl h (by omega)
    | same o a b =>
      obtain ⟨s', r, e, -⟩ := c3 o a b
      exact done (by simp only [stepU, e, Res.bind_ok]; rfl) (.same o a b h e) (by omega)
    | join o1 o2 a b =>
      obtain ⟨s', r, e, -⟩ := c4 o1 o2 a b
      exact done (by simp only [stepU, e, Res.bind_ok]; rfl) (.join o1 o2 a b h e) (by omega)
    | find a =>
      obtain ⟨s', -, r, -, e, -⟩ := c5 a a
      exact done (by simp only [stepU, e, Res.bind_ok]; rfl) (.find a h e) (by omega)
    | sizeOf a =>
      obtain ⟨s', r, e, -⟩ := c6 a
      exact done (by simp only [stepU, e, Res.bind_ok]; rfl) (.sizeOf a h e) (by omega)
    | disjoint => exact done rfl h (by omega)
    | acorn => exact done rfl h (by omega)

theorem tagAll_length (q : T → Option Q) (ops : List (Op T)) : ∀ i, (tagAll q i ops).length = ops.length := by
  induction ops with
  | nil => intro i; rfl
  | cons op ops ih => intro i; simp [tagAll, ih]

include hq in
theorem run_agree (ops : List (Op T)) : ∀ {i : Nat} {s : UFE T} {u u' : UF (Q ⊕ Nat)} {os : List Out}, Rel q eq i s u →
    runU u (tagAll q i ops) = .ok (u', os) → ∃ s', run eq s ops = .ok (s', os) ∧ Rel q eq (i + ops.length) s' u' := by
  induction ops with
  | nil =>
    intro i s u u' os h e
    simp only [tagAll, runU, Res.ok.injEq, Prod.mk.injEq] at e
    obtain ⟨rfl, rfl⟩ := e
    exact ⟨s, rfl, h⟩
  | cons op ops ih =>
    intro i s u u' os h e
    simp only [tagAll, runU] at e
    obtain ⟨⟨u1, o⟩, e1, e⟩ := Res.bind_eq_ok.1 e
    obtain ⟨⟨u2, os2⟩, e2, e⟩ := Res.bind_eq_ok.1 e
    simp only [Res.ok.injEq, Prod.mk.injEq] at e
    obtain ⟨rfl, rfl⟩ := e
    have ha := agree_step hq h op
    rw [e1] at ha
    cases hs : step eq s op with
    | ok x =>
      obtain ⟨s1, o'⟩ := x
      rw [hs] at ha
      obtain ⟨h1, rfl⟩ := ha
      obtain ⟨s', e', h'⟩ := ih h1 e2
      refine ⟨s', by simp only [run, hs, Res.bind_ok, e'], ?_⟩
      rw [List.length_cons, show i + (ops.length + 1) = i + 1 + ops.length by omega]; exact h'
    | exc e => rw [hs] at ha; exact ha.elim
    | ub => rw [hs] at ha; exact ha.elim

theorem rel_new (q : T → Option Q) (eq : T → T → Bool) (compress : Bool) : Rel q eq 0 (UFE.new compress) (UF.new compress) :=
  ⟨rfl, rfl, fun _ _ _ => rfl, fun _ _ => rfl⟩

/-! ### C184 -/

include hq in
/-- **C184** (partial).  Every history of calls by element is defined and gives the results that C18 describes for the history in which each
element is replaced by its value, and an element that is not equal to itself by a different new element in each call that mentions it.
What is missing for the full statement `C184_statement` is false (`C184_counterexample`). -/
theorem C184_partial (compress : Bool) (ops : List (Op T)) (hW : ops.length + 1 < W) :
    ∃ s u os K E, run eq (UFE.new compress) ops = .ok (s, os) ∧ runU (UF.new compress) (tagAll q 0 ops) = .ok (u, os) ∧
      UFReach u K E ∧ s.core = u.core ∧ s.cnt = u.cnt ∧ ∀ k, s.exists eq k = true ↔ ∃ c, q k = some c ∧ .inl c ∈ K := by
  obtain ⟨u, os, K, E, e, h⟩ := runU_reach (tagAll q 0 ops) (UFReach.new (T := Q ⊕ Nat) compress)
    (by rw [tagAll_length]; simpa using hW)
  obtain ⟨s, e', r⟩ := run_agree hq ops (rel_new q eq compress) e
  refine ⟨s, u, os, K, E, e', e, h, r.core, r.cnt, fun k => ?_⟩
  unfold UFE.exists
  cases hk : q k with
  | none => rw [lookup_unnamed hq hk]; exact ⟨(fun h => by cases h), fun ⟨c, h, _⟩ => by cases h⟩
  | some c =>
    rw [r.named k c hk]
    have := (C18_elements h).2.1 (.inl c)
    unfold UF.exists at this
    rw [this]
    exact ⟨fun h => ⟨c, rfl, h⟩, fun ⟨c', h1, h2⟩ => by injection h1 with h1; rw [h1]; exact h2⟩

end

/-- C184 (full statement) for an equality `eq`: after any history, an inserted element exists, is in its own set, is found, and is not
inserted again. -/
def C184_statement (eq : T → T → Bool) : Prop :=
  ∀ (compress : Bool) (ops : List (Op T)) (s : UFE T) (os : List Out), ops.length + 2 < W → run eq (UFE.new compress) ops = .ok (s, os) →
    ∀ x, (s.insert eq x).1.exists eq x = true ∧ ((s.insert eq x).1.insert eq x).2 = false ∧
      ∃ s' r, (s.insert eq x).1.findByElem eq x = .ok (s', r) ∧ r ≠ notFound

theorem exists_insert {eq : T → T → Bool} {x : T} (hx : eq x x = true) (s : UFE T) : (s.insert eq x).1.exists eq x = true := by
  unfold UFE.insert
  by_cases c : s.exists eq x = true
  · rw [if_pos c]; exact c
  · rw [if_neg c]
    show (lookup eq (assign eq s.ids x s.core.parent.length) x).isSome = true
    unfold assign
    by_cases d : s.ids.any (fun e => eq x e.1) = true
    · exfalso
      apply c
      unfold UFE.exists lookup
      rw [List.any_eq_true] at d
      rw [Option.isSome_map, List.find?_isSome]
      exact d
    · rw [if_neg d]; simp [lookup, hx]

/-- The full statement holds if every element is equal to itself (and `==` is symmetric and transitive). -/
theorem C184_reflexive (eq : T → T → Bool) (he : Per eq) (hrefl : ∀ k, eq k k = true) : C184_statement eq := by
  classical
  intro compress ops s os hW hr x
  have hex := exists_insert (hrefl x) s
  refine ⟨hex, ?_, ?_⟩
  · have : ∀ t : UFE T, t.exists eq x = true → (t.insert eq x).2 = false := by
      intro t ht; unfold UFE.insert; rw [if_pos ht]
    exact this _ hex
  · have hq := names_of_per he
    have happ : ∀ (a b : List (Op T)) (t : UFE T) t1 o1, run eq t a = .ok (t1, o1) → ∀ t2 o2, run eq t1 b = .ok (t2, o2) →
        run eq t (a ++ b) = .ok (t2, o1 ++ o2) := by
      intro a
      induction a with
      | nil => intro b t t1 o1 h t2 o2 h2; simp only [run, Res.ok.injEq, Prod.mk.injEq] at h; obtain ⟨rfl, rfl⟩ := h; exact h2
      | cons op a ih =>
        intro b t t1 o1 h t2 o2 h2
        simp only [run] at h
        obtain ⟨⟨u1, o⟩, e1, e⟩ := Res.bind_eq_ok.1 h
        obtain ⟨⟨u2, os2⟩, e2, e⟩ := Res.bind_eq_ok.1 e
        simp only [Res.ok.injEq, Prod.mk.injEq] at e
        obtain ⟨rfl, rfl⟩ := e
        simp only [List.cons_append, run, e1, Res.bind_ok, ih b u1 _ _ e2 _ _ h2]
    have h1 : run eq (UFE.new compress) (ops ++ [.insert x]) = .ok ((s.insert eq x).1, os ++ [.bool (s.insert eq x).2]) :=
      happ ops _ _ _ _ hr _ _ rfl
    obtain ⟨u, os', K, E, e, h⟩ := runU_reach (tagAll _ 0 (ops ++ [.insert x]))
      (UFReach.new (T := (T → Bool) ⊕ Nat) compress)
      (by rw [tagAll_length (fun a => if eq a a = true then some (eq a) else none)]; simp; omega)
    obtain ⟨s', e', r⟩ := run_agree hq (ops ++ [.insert x]) (rel_new _ eq compress) e
    rw [h1] at e'
    simp only [Res.ok.injEq, Prod.mk.injEq] at e'
    obtain ⟨rfl, -⟩ := e'
    have hf := agree_find hq r x
    have hin := (C18_elements h).2.1 (tag (fun a => if eq a a = true then some (eq a) else none) (0 + (ops ++ [Op.insert x]).length) x)
    unfold UFE.exists at hex
    rw [rel_lookup hq r x] at hex
    have hin := hin.1 hex
    obtain ⟨r1, ρ1, hi⟩ := h.inv
    obtain ⟨u', l, e5, -, -, e6⟩ := hi.find (tag (fun a => if eq a a = true then some (eq a) else none) (0 + (ops ++ [Op.insert x]).length) x)
    have hl := (e6 hin).1
    have hn := hi.core.nW
    rw [e5] at hf
    cases hs : UFE.findByElem eq (s.insert eq x).1 x with
    | ok y =>
      obtain ⟨s', l'⟩ := y
      rw [hs] at hf
      obtain ⟨-, rfl⟩ := hf
      exact ⟨s', l', rfl, by unfold notFound; omega⟩
    | exc e => rw [hs] at hf; exact hf.elim
    | ub => rw [hs] at hf; exact hf.elim

/-- An element that is not equal to itself never exists, however often it is inserted: every insertion makes a new set, and no other call
can refer to it. -/
theorem C184_lost (eq : T → T → Bool) (he : Per eq) (x : T) (hx : eq x x = false) (s : UFE T) :
    s.exists eq x = false ∧ (s.insert eq x).2 = true ∧ (s.insert eq x).1.cnt.disjoint = (s.cnt.disjoint + 1) % W ∧
    (s.insert eq x).1.core.parent.length = s.core.parent.length + 1 ∧
    s.findByElem eq x = .ok (s, notFound) ∧ s.sizeOfElem eq x = .ok (s, 0) ∧
    (∀ o y, s.sameSetElems eq o x y = .ok (s, false) ∧ s.sameSetElems eq o y x = .ok (s, false)) ∧
    (∀ o1 o2 y, s.joinSets eq o1 o2 x y = .ok (s, false) ∧ s.joinSets eq o1 o2 y x = .ok (s, false)) := by
  classical
  have hl : ∀ t : UFE T, t.exists eq x = false := by
    intro t
    unfold UFE.exists
    rw [lookup_unnamed (names_of_per he) (k := x) (by simp [hx])]; rfl
  have hf : s.findByElem eq x = .ok (s, notFound) := by unfold UFE.findByElem; rw [hl]; rfl
  refine ⟨hl s, ?_, ?_, ?_, hf, ?_, fun o y => ?_, fun o1 o2 y => ?_⟩
  · unfold UFE.insert; rw [hl]; rfl
  · unfold UFE.insert; rw [hl]; rfl
  · unfold UFE.insert; rw [hl]; simp
  · unfold UFE.sizeOfElem; rw [hf]; simp
  · unfold UFE.sameSetElems; rw [hl]; simp
  · unfold UFE.joinSets; rw [hl]; simp

/-- C184 is false for floating point elements: NaN does not exist after its insertion. -/
theorem C184_counterexample : ¬ C184_statement ieeeEq := by
  intro h
  have h1 := (h true [] _ _ (by decide) rfl .nan).1
  rw [(C184_lost ieeeEq ieee_per .nan rfl _).1] at h1
  cases h1

/-- It is true for a list of numbers that are not NaN, where 0.0 and -0.0 are the same element. -/
example : (run ieeeEq (UFE.new true) [.insert .nan, .insert (.num 0), .insert .negZero, .insert .nan, .insert (.num 3),
    .join true true .negZero (.num 3), .same true (.num 0) (.num 3), .same true .nan .nan, .sizeOf (.num 0), .disjoint]).toOption.map Prod.snd =
    some [.bool true, .bool true, .bool false, .bool true, .bool true, .bool true, .bool true, .bool false, .num 2, .num 3] := by
  decide +kernel

example : Names ieeeEq Fl.val := by
  intro a b
  unfold ieeeEq
  cases ha : a.val with
  | none => simp
  | some x =>
    cases hb : b.val with
    | none => simp
    | some y =>
      simp only [Option.isSome_some, Bool.true_and, beq_iff_eq, Option.some.injEq]
      exact ⟨fun h => ⟨x, rfl, h.symm⟩, fun ⟨c, h1, h2⟩ => by rw [h1, h2]⟩

end Verif.UnionFind.Unequal
