import Verif.UnionFind.History

/-! Property theorems C10–C19: union_set_t and union_find_t. -/

namespace Verif.UnionFind
open Spec

/-! A running example: three sets, 0 and 1 joined. -/
section ExampleState

def ex0 : USet := USet.new 3 true
def ex1 : USet := ⟨⟨[1, 1, 2], [1, 2, 1], true⟩, ⟨2, 3⟩⟩

theorem ex1_step : USet.join true true ex0 0 1 = .ok (ex1, true) := by decide +kernel

theorem ex1_reach : Reach ex1 3 [(0, 1)] :=
  .join true true 0 1 (.new 3 true (by decide)) ex1_step

end ExampleState

/-- **C10**: in every reachable object, `same(a, b)` terminates without error and answers connectivity under the
joins performed so far. -/
theorem C10_same {s n E} (h : Reach s n E) (o : Bool) (a b : Nat) :
    ∃ s' res, s.same o a b = .ok (s', res) ∧ (res = true ↔ a < n ∧ b < n ∧ Conn E a b) := by
  obtain ⟨s', res, h1, _, h2⟩ := h.inv.same o a b
  exact ⟨s', res, h1, h2⟩

example : ∃ s' res, ex1.same true 1 0 = .ok (s', res) ∧ (res = true ↔ 1 < 3 ∧ 0 < 3 ∧ Conn [(0, 1)] 1 0) :=
  C10_same ex1_reach true 1 0
example : (ex1.same true 1 0).bind (fun p => .ok p.2) = .ok true ∧
    (ex1.same true 1 2).bind (fun p => .ok p.2) = .ok false := by decide +kernel

/-- **C11**: `join(a, b)` returns true iff both sets exist and were not connected; afterwards `same` says that exactly
the classes of `a` and `b` have been merged. -/
theorem C11_join {s n E} (h : Reach s n E) (o1 o2 : Bool) (a b : Nat) :
    ∃ s' res, s.join o1 o2 a b = .ok (s', res) ∧
      (res = true ↔ a < n ∧ b < n ∧ ¬ Conn E a b) ∧
      ∀ o x y, ∃ s'' res', s'.same o x y = .ok (s'', res') ∧
        (res' = true ↔ x < n ∧ y < n ∧ (Conn E x y ∨
          (a < n ∧ b < n ∧ ((Conn E x a ∧ Conn E b y) ∨ (Conn E x b ∧ Conn E a y))))) := by
  obtain ⟨s', res, h1, h2, h3⟩ := h.inv.join o1 o2 a b
  refine ⟨s', res, h1, h3, fun o x y => ?_⟩
  obtain ⟨s'', res', k1, _, k2⟩ := h2.same o x y
  refine ⟨s'', res', k1, ?_⟩
  rw [k2]
  by_cases hab : a < n ∧ b < n
  · rw [if_pos hab, conn_cons]; simp [hab.1, hab.2]
  · rw [if_neg hab]
    constructor
    · rintro ⟨p, q, r⟩; exact ⟨p, q, .inl r⟩
    · rintro ⟨p, q, r | ⟨u, v, _⟩⟩
      · exact ⟨p, q, r⟩
      · exact absurd ⟨u, v⟩ hab

example : ∃ s' res, ex1.join true false 2 0 = .ok (s', res) ∧ (res = true ↔ 2 < 3 ∧ 0 < 3 ∧ ¬ Conn [(0, 1)] 2 0) := by
  obtain ⟨s', res, h1, h2, _⟩ := C11_join ex1_reach true false 2 0
  exact ⟨s', res, h1, h2⟩
example : (ex1.join true true 2 0).bind (fun p => .ok p.2) = .ok true ∧
    (ex1.join true true 1 0).bind (fun p => .ok p.2) = .ok false := by decide +kernel

/-- **C12**: `disjoint()` is the number of classes. -/
theorem C12_disjoint {s n E} (h : Reach s n E) : ClassCount (· < n) E s.disjoint := by
  obtain ⟨r, ρ, hi, hk, hd, _⟩ := h.inv
  unfold USet.disjoint
  rw [hd]
  exact classCount_of hk (fun x hx => ⟨(hi.root x hx).1, (hi.root x hx).2.1⟩)

example : ClassCount (· < 3) [(0, 1)] 2 := C12_disjoint ex1_reach

/-- **C13**: `size_of(x)` is the size of the class of `x`, 0 for a missing set. -/
theorem C13_size_of {s n E} (h : Reach s n E) (x : Nat) :
    ∃ s' k, s.sizeOf x = .ok (s', k) ∧ (x < n → ClassSize (· < n) E x k) ∧ (n ≤ x → k = 0) := by
  obtain ⟨s', k, h1, _, h2, h3⟩ := h.inv.sizeOf x
  exact ⟨s', k, h1, h3, h2⟩

example : ∃ s' k, ex1.sizeOf 0 = .ok (s', k) ∧ (0 < 3 → ClassSize (· < 3) [(0, 1)] 0 k) ∧ (3 ≤ 0 → k = 0) :=
  C13_size_of ex1_reach 0
example : (ex1.sizeOf 0).bind (fun p => .ok p.2) = .ok 2 ∧ (ex1.sizeOf 7).bind (fun p => .ok p.2) = .ok 0 := by
  decide +kernel

/-- **C14**: `find(x)` returns a member of the class of `x`; between joins two `find`s (with any reads in between) agree
iff their arguments are connected; missing sets give `not_found`, which is no set; reads change neither the classes nor
`disjoint()`. -/
theorem C14_find {s t n E} (h : Reach s n E) (hr : Reads s t) (a b : Nat) :
    ∃ s' t' ra rb, s.find a = .ok (s', ra) ∧ t.find b = .ok (t', rb) ∧
      (a < n → ra < n ∧ Conn E ra a) ∧ (n ≤ a → ra = notFound ∧ n ≤ ra) ∧
      (a < n → b < n → (ra = rb ↔ Conn E a b)) ∧
      t.disjoint = s.disjoint ∧ Reach t n E := by
  obtain ⟨r, ρ, hi, hk, hd, _⟩ := h.inv
  obtain ⟨hi', hc⟩ := hr.core hi
  obtain ⟨c1, e1, i1⟩ := uset_find_core hi a
  obtain ⟨c2, e2, i2⟩ := uset_find_core hi' b
  have hnW := hi.nW
  refine ⟨_, _, _, _, e1, e2, fun ha => ?_, fun ha => ?_, fun ha hb => ?_, ?_, hr.reach h⟩
  · rw [if_pos ha]
    exact ⟨(hi.root a ha).1, (hk _ _).1 (hi.root a ha).2.1⟩
  · rw [if_neg (by omega)]
    exact ⟨rfl, by unfold notFound; omega⟩
  · rw [if_pos ha, if_pos hb]; exact hk a b
  · unfold USet.disjoint; rw [hc]

example : ∃ s' t' ra rb, ex1.find 0 = .ok (s', ra) ∧ ex1.find 1 = .ok (t', rb) ∧ (0 < 3 → ra < 3 ∧ Conn [(0, 1)] ra 0) := by
  obtain ⟨s', t', ra, rb, h1, h2, h3, _⟩ := C14_find ex1_reach (.refl _) 0 1
  exact ⟨s', t', ra, rb, h1, h2, h3⟩
example : (ex1.find 0).bind (fun p => .ok p.2) = .ok 1 := by decide +kernel

/-- **C15**: `find(x)` makes at most `log2 k` recursive calls, `k` the size of the class of `x`: with that depth
available it completes with the same result. -/
theorem C15_depth {s n E} (h : Reach s n E) (x k : Nat) (hx : x < n) (hk : ClassSize (· < n) E x k) :
    ∃ y, findFuel (Nat.log2 k + 1) s.core x = .ok y ∧ find s.core x = .ok y := by
  obtain ⟨r, ρ, hi, hkn, _⟩ := h.inv
  have hk' : k = csize n r (r x) := ClassSize.unique hk (classSize_of hkn x)
  have hb := hi.rho_bound x hx
  rw [← hk'] at hb
  have hpos : k ≠ 0 := by
    have : 0 < 2 ^ ρ (r x) := Nat.two_pow_pos _
    omega
  have hlog : ρ (r x) ≤ Nat.log2 k := (Nat.le_log2 hpos).2 hb
  obtain ⟨c', e, _⟩ := CInv.findFuel (Nat.log2 k + 1) s.core x hi hx (by omega)
  refine ⟨_, e, ?_⟩
  unfold find
  apply findFuel_le _ e
  have hle : k ≤ n := by rw [hk']; exact csize_le _ _ _
  have : Nat.log2 k < k := (Nat.log2_lt hpos).2 Nat.lt_two_pow_self
  rw [hi.lenP]; omega

example : ∃ y, findFuel (Nat.log2 2 + 1) ex1.core 0 = .ok y ∧ find ex1.core 0 = .ok y := by
  refine C15_depth ex1_reach 0 2 (by decide) ⟨[0, 1], by decide, fun x => ?_, rfl⟩
  have e : Conn [(0, 1)] 1 0 := .symm _ _ (.rel _ _ (by decide))
  constructor
  · intro hx
    rcases List.mem_cons.1 hx with rfl | hx
    · exact ⟨by decide, .refl _⟩
    · rcases List.mem_cons.1 hx with rfl | hx
      · exact ⟨by decide, e⟩
      · cases hx
  · rintro ⟨h1, h2⟩
    obtain ⟨s', res, e', h3⟩ := C10_same ex1_reach true x 0
    have : res = true := h3.2 ⟨h1, by decide, h2⟩
    subst this
    have h4 : x = 0 ∨ x = 1 ∨ x = 2 := by omega
    rcases h4 with rfl | rfl | rfl
    · decide
    · decide
    · have h5 : (USet.same true ex1 2 0).bind (fun p => .ok p.2) = .ok false := by decide +kernel
      rw [e'] at h5
      injection h5 with h5
      cases h5

/-- **C16 (partial)**: what `insert` does.  The return value is as documented, and elements other than `x` keep their
parent and rank cells, but a new `x` is not inserted (nothing changes) and an existing `x` is reset to a root of rank 1
with both counters increased.  The documented contract (after the call `x` is present as a singleton, the rest
undisturbed) fails in both cases: `C16_counterexample`. -/
theorem C16_insert_partial {s n E} (h : Reach s n E) (x : Nat) :
    ((s.insert x).2 = true ↔ ¬ x < n) ∧
    (¬ x < n → (s.insert x).1 = s) ∧
    (x < n → (s.insert x).1.core.parent = s.core.parent.set x x ∧ (s.insert x).1.core.rank = s.core.rank.set x 1 ∧
      (s.insert x).1.disjoint = (s.disjoint + 1) % W ∧ (s.insert x).1.acorn = (s.acorn + 1) % W) := by
  have he := h.inv.exists_iff x
  unfold USet.insert
  rw [he]
  by_cases hx : x < n <;> simp [hx, USet.disjoint, USet.acorn]

example : ((ex1.insert 5).2 = true ↔ ¬ 5 < 3) := (C16_insert_partial ex1_reach 5).1

/-- C16 fails: `insert` of a new id does not make it exist; `insert` of an existing, joined id (here the representative
1 of {0,1}) leaves it joined while `disjoint()` counts one class more; `insert` of the other member cuts it off while
`size_of` still counts it. -/
theorem C16_counterexample :
    ((ex1.insert 5).2 = true ∧ (ex1.insert 5).1.exists 5 = false) ∧
    (((ex1.insert 1).1.same true 0 1).bind (fun p => .ok p.2) = .ok true ∧ (ex1.insert 1).1.disjoint = 3) ∧
    (((ex1.insert 0).1.same true 0 1).bind (fun p => .ok p.2) = .ok false ∧
      ((ex1.insert 0).1.sizeOf 1).bind (fun p => .ok p.2) = .ok 2) := by decide +kernel

/-- Number of sets without a parent (their parent cell is themselves). -/
def Spec.parentless (s : USet) : Nat :=
  (List.range s.core.parent.length).countP (fun i => decide (s.core.parent[i]? = some i))

/-- **C17 (partial)**: `acorn()` is the number of sets ever created; it is the number of sets without a parent as long
as no two different sets were joined.  After a successful join it is too large: `C17_counterexample`. -/
theorem C17_acorn_partial {s n E} (h : Reach s n E) :
    s.acorn = n ∧ ((∀ p ∈ E, p.1 = p.2) → s.acorn = Spec.parentless s) := by
  obtain ⟨r, ρ, hi, hk, _, ha⟩ := h.inv
  refine ⟨ha, fun hE => ?_⟩
  have hconn : ∀ x y, Conn E x y → x = y := by
    intro x y hc
    unfold Conn at hc
    induction hc with
    | rel x y h => exact hE _ h
    | refl x => rfl
    | symm x y _ ih => exact ih.symm
    | trans x y z _ _ ih1 ih2 => exact ih1.trans ih2
  unfold USet.acorn Spec.parentless
  rw [ha, hi.lenP]
  have : (List.range n).countP (fun i => decide (s.core.parent[i]? = some i)) = (List.range n).length := by
    rw [List.countP_eq_length]
    intro i hi'
    have hin : i < n := by simpa using hi'
    have h1 := (hi.root i hin)
    have h2 : r i = i := hconn _ _ ((hk _ _).1 h1.2.1)
    rw [h2] at h1
    simpa using h1.2.2
  rw [this, List.length_range]

example : ex0.acorn = Spec.parentless ex0 :=
  (C17_acorn_partial (.new 3 true (by decide))).2 (by simp)

/-- C17 fails after one join: three sets, one of them with a parent, `acorn() = 3`. -/
theorem C17_counterexample : Reach ex1 3 [(0, 1)] ∧ ex1.acorn = 3 ∧ Spec.parentless ex1 = 2 :=
  ⟨ex1_reach, by decide, by decide⟩

section UnionFind
variable {T : Type} [DecidableEq T]

/-- **C18**: element-keyed calls on `union_find_t`.  In every reachable object (elements `K`, joined pairs `E`):
`insert` returns true iff the element is new, `same_set` is connectivity, `join_sets` returns true iff it merged two
classes, `find_by_elem` is canonical (`not_found` for absent elements), `size_of` is the class size and `disjoint()` the
number of classes. -/
theorem C18_elements {s : UF T} {K E} (h : UFReach s K E) :
    (∀ x, K.length + 1 < W → ((s.insert x).2 = true ↔ x ∉ K)) ∧
    (∀ x, s.exists x = true ↔ x ∈ K) ∧
    (∀ o a b, ∃ s' res, s.sameSetElems o a b = .ok (s', res) ∧ (res = true ↔ a ∈ K ∧ b ∈ K ∧ Conn E a b)) ∧
    (∀ o1 o2 a b, ∃ s' res, s.joinSets o1 o2 a b = .ok (s', res) ∧ (res = true ↔ a ∈ K ∧ b ∈ K ∧ ¬ Conn E a b)) ∧
    (∀ a b, ∃ s' s'' ra rb, s.findByElem a = .ok (s', ra) ∧ s'.findByElem b = .ok (s'', rb) ∧
      (a ∈ K → b ∈ K → (ra = rb ↔ Conn E a b)) ∧ (a ∉ K → ra = notFound)) ∧
    (∀ a, ∃ s' k, s.sizeOfElem a = .ok (s', k) ∧ (a ∈ K → ClassSize (· ∈ K) E a k) ∧ (a ∉ K → k = 0)) ∧
    ClassCount (· ∈ K) E s.cnt.disjoint := by
  obtain ⟨r, ρ, i⟩ := h.inv
  refine ⟨fun x hW => ?_, fun x => ?_, fun o a b => ?_, fun o1 o2 a b => ?_, fun a b => ?_, fun a => ?_, i.classCount⟩
  · rw [(i.insert x hW).1]; simp
  · rw [i.mem_iff]; simp
  · obtain ⟨s', res, h1, _, h2⟩ := i.same o a b
    exact ⟨s', res, h1, h2⟩
  · obtain ⟨s', res, _, _, h1, _, h2⟩ := i.join o1 o2 a b
    exact ⟨s', res, h1, h2⟩
  · obtain ⟨s', ra, h1, i1, h2, h3⟩ := i.find a
    obtain ⟨s'', rb, k1, i2, k2, k3⟩ := i1.find b
    refine ⟨s', s'', ra, rb, h1, k1, fun ha hb => ?_, h2⟩
    have e1 := (h3 ha).2.2
    have e2 := (k3 hb).2.2
    have hids : label s'.ids r = label s.ids r := by
      rw [UFInv.find_ids h1]
    rw [hids] at e2
    rw [← i.kern a b, e1, e2]
    simp
  · obtain ⟨s', k, h1, _, h2, h3⟩ := i.sizeOf a
    exact ⟨s', k, h1, h3, h2⟩

end UnionFind

/-- Elements 10, 20, 30 with 10 and 20 joined. -/
def uf0 : UF Nat := (((UF.new true).insert 10).1.insert 20).1.insert 30 |>.1

theorem uf0_reach : UFReach uf0 [30, 20, 10] [] := by
  have h1 : UFReach _ _ _ := UFReach.insert (s := UF.new true) (T := Nat) 10 (by decide) (.new true)
  have h2 := UFReach.insert 20 (by decide) h1
  have h3 := UFReach.insert 30 (by decide) h2
  exact h3

example : ∃ s' res, uf0.joinSets true true 10 20 = .ok (s', res) ∧ (res = true ↔ 10 ∈ [30, 20, 10] ∧ 20 ∈ [30, 20, 10] ∧
    ¬ Conn [] 10 20) := (C18_elements uf0_reach).2.2.2.1 true true 10 20
example : ((uf0.joinSets true true 10 20).bind (fun p => p.1.sizeOfElem 10)).bind (fun p => .ok p.2) = .ok 2 := by
  decide +kernel

/-- **C19 (partial)**: the calls by set id behave as specified when the existence test (which looks the *id* up as a
key) happens to agree with the existence of the set, e.g. when the elements are their own ids.  Otherwise they reject
valid ids or access out of bounds: `C19_counterexample`. -/
theorem C19_ids_partial {T : Type} [DecidableEq T] {s : UF T} {K E} (h : UFReach s K E) (toKey : Nat → T)
    (hkey : ∀ i, s.exists (toKey i) = s.existsSet i) :
    (∀ i, ∃ s' root, s.findId toKey i = .ok (s', root) ∧ (i < K.length → root < K.length) ∧
      (K.length ≤ i → root = notFound)) ∧
    (∀ i, ∃ s' k, s.sizeOfId toKey i = .ok (s', k) ∧ (k = 0 ↔ K.length ≤ i)) ∧
    (∀ o i j, ∃ s' res, s.sameIds toKey o i j = .ok (s', res) ∧
      (∀ a b, s.ids a = some i → s.ids b = some j → (res = true ↔ Conn E a b)) ∧
      (¬ (i < K.length ∧ j < K.length) → res = false)) ∧
    (∀ o1 o2 i j, ∃ s' res, s.joinIds toKey o1 o2 i j = .ok (s', res) ∧
      (∀ a b, s.ids a = some i → s.ids b = some j → (res = true ↔ ¬ Conn E a b)) ∧
      (¬ (i < K.length ∧ j < K.length) → res = false)) := by
  obtain ⟨r, ρ, i⟩ := h.inv
  have hex : ∀ j, s.exists (toKey j) = decide (j < K.length) := by
    intro j; rw [hkey]; unfold UF.existsSet; rw [i.core.lenP]
  have hnW := i.core.nW
  have hfind : ∀ j, ∃ s' root, s.findId toKey j = .ok (s', root) ∧ (j < K.length → root < K.length) ∧
      (K.length ≤ j → root = notFound) ∧ (j < K.length → ∃ k, s'.core.rank[root]? = some k ∧ 1 ≤ k) := by
    intro j
    unfold UF.findId
    rw [hex]
    by_cases hj : j < K.length
    · obtain ⟨c', e, i', _⟩ := i.core.find j hj
      simp only [hj, decide_true, Bool.not_true, Bool.false_eq_true, if_false, e, Res.bind_ok]
      have hr := i'.root j hj
      exact ⟨_, _, rfl, fun _ => hr.1, fun h' => by omega, fun _ => i'.rk _ hr.1⟩
    · simp only [hj, decide_false, Bool.not_false, if_true]
      exact ⟨s, notFound, rfl, fun h' => h'.elim, fun _ => rfl, fun h' => h'.elim⟩
  refine ⟨fun j => ?_, fun j => ?_, fun o a b => ?_, fun o1 o2 a b => ?_⟩
  · obtain ⟨s', root, h1, h2, h3, _⟩ := hfind j
    exact ⟨s', root, h1, h2, h3⟩
  · obtain ⟨s', root, h1, h2, h3, h4⟩ := hfind j
    unfold UF.sizeOfId
    rw [h1]
    simp only [Res.bind_ok]
    by_cases hj : j < K.length
    · obtain ⟨k, h5, h6⟩ := h4 hj
      have := h2 hj
      rw [if_pos (by unfold notFound; omega)]
      have e2 : rd s'.core.rank root = .ok k := by simp [rd, h5]
      rw [e2]
      exact ⟨s', k, rfl, by omega⟩
    · rw [h3 (by omega), if_neg (by simp)]
      exact ⟨s', 0, rfl, by omega⟩
  · unfold UF.sameIds
    rw [hex, hex]
    by_cases hab : a < K.length ∧ b < K.length
    · obtain ⟨c', e, i', _⟩ := i.core.sameSet o a b hab.1 hab.2
      simp only [hab.1, hab.2, decide_true, Bool.and_true, if_true, e, Res.bind_ok]
      refine ⟨_, _, rfl, fun x y hx hy => ?_, fun h' => absurd ⟨trivial, trivial⟩ h'⟩
      rw [← i.kern x y, UFInv.label_of hx, UFInv.label_of hy]; simp
    · have : (decide (a < K.length) && decide (b < K.length)) = false := by
        rw [← Bool.decide_and]; simpa using hab
      rw [this]
      refine ⟨s, false, rfl, fun x y hx hy => ?_, fun _ => rfl⟩
      exact absurd ⟨((i.ids x a).1 hx).1, ((i.ids y b).1 hy).1⟩ hab
  · unfold UF.joinIds
    rw [hex, hex]
    by_cases hab : a < K.length ∧ b < K.length
    · obtain ⟨c', k', r', ρ', e, i', _⟩ := i.core.joinElems o1 o2 s.cnt a b hab.1 hab.2 i.dis
        (by rw [i.acorn]; exact i.core.nW)
      simp only [hab.1, hab.2, decide_true, Bool.and_true, if_true, e, Res.bind_ok]
      refine ⟨_, _, rfl, fun x y hx hy => ?_, fun h' => absurd ⟨trivial, trivial⟩ h'⟩
      rw [← i.kern x y, UFInv.label_of hx, UFInv.label_of hy]; simp
    · have : (decide (a < K.length) && decide (b < K.length)) = false := by
        rw [← Bool.decide_and]; simpa using hab
      rw [this]
      refine ⟨s, false, rfl, fun x y hx hy => ?_, fun _ => rfl⟩
      exact absurd ⟨((i.ids x a).1 hx).1, ((i.ids y b).1 hy).1⟩ hab

/-- Elements equal to their ids: the hypothesis of `C19_ids_partial` holds. -/
def ufId : UF Nat := ((UF.new true).insert 0).1.insert 1 |>.1

example : ∀ i, ufId.exists (id i) = ufId.existsSet i := by
  intro i
  have : ufId.ids = fun k => if k = 1 then some 1 else if k = 0 then some 0 else none := rfl
  have h2 : ufId.core.parent.length = 2 := rfl
  unfold UF.exists UF.existsSet
  rw [this, h2]
  simp only [id]
  by_cases h1 : i = 1
  · subst h1; rfl
  · by_cases h0 : i = 0
    · subst h0; rfl
    · have : ¬ i < 2 := by omega
      simp [h1, h0, this]

/-- C19 fails: with elements 10, 20, 30 (`T` = an integer type) the existing set 0 is "not found" and has size 0, and
the id 10 of no set is accepted and read out of bounds. -/
theorem C19_counterexample : UFReach uf0 [30, 20, 10] [] ∧
    uf0.existsSet 0 = true ∧ (uf0.findId id 0).bind (fun p => .ok p.2) = .ok notFound ∧
    (uf0.sizeOfId id 0).bind (fun p => .ok p.2) = .ok 0 ∧
    uf0.existsSet 10 = false ∧ (uf0.findId id 10).bind (fun p => .ok p.2) = .ub ∧
    (uf0.joinIds id true true 10 20).bind (fun p => .ok p.2) = .ub := by
  refine ⟨uf0_reach, ?_⟩
  decide +kernel

end Verif.UnionFind
