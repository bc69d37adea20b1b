import Verif.Seg.BracketProps

/-!
C202: segment trees over signed integers (a user's `join` that adds or multiplies, segment_tree.h:501-553), whose overflow is undefined.

The values of the model are `Option Int`: `none` is the result of an operation that overflowed, and of every operation on such a result.  Since
`none` is contagious and every result of a `join` is stored or returned (segment_tree.h:369-381, 466-489), no overflow goes unnoticed:
see `C202_fits`.
-/

namespace Verif.Seg
open Verif.Seg.Spec
variable {T V U : Type}

/-- `op` on integers between `mn` and `mx`. -/
def chk (op : Int → Int → Int) (mn mx : Int) : Option Int → Option Int → Option Int
  | some x, some y => if mn ≤ op x y ∧ op x y ≤ mx then some (op x y) else none
  | _, _ => none

/-- The nodes of the tree that the build has reached. -/
inductive Reached (h : List (RNode V U)) : RNode V U → Prop
  | root {n} (hn : h[0]? = some n) : Reached h n
  | left {n c} (hn : Reached h n) (hb : n.start < n.stop) (hc : h[2 * n.index + 1]? = some c) : Reached h c
  | right {n c} (hn : Reached h n) (hb : n.start < n.stop) (hc : h[2 * n.index + 2]? = some c) : Reached h c

/-! ### Specification -/

/-- The elements from `a` to `b` combined, exactly and from left to right. -/
def total (op : Int → Int → Int) (xs : List Int) (a b : Nat) : Int := joinAll op 0 (slice xs a b)

/-- All sections fit the type. -/
def SectionsFit (op : Int → Int → Int) (mn mx : Int) (xs : List Int) : Prop :=
  ∀ a b, a ≤ b → b < xs.length → mn ≤ total op xs a b ∧ total op xs a b ≤ mx

/-! ### Lemmas -/

variable {op : Int → Int → Int} {mn mx : Int}

theorem foldl_assoc_cons (assoc : ∀ x y z, op (op x y) z = op x (op y z)) (ys : List Int) : ∀ x y : Int, ys.foldl op (op x y) = op x (ys.foldl op y) := by
  induction ys with
  | nil => intro x y; rfl
  | cons z ys ih => intro x y; rw [List.foldl_cons, List.foldl_cons, assoc, ih]

theorem joinAll_split (assoc : ∀ x y z, op (op x y) z = op x (op y z)) {xs ys : List Int} (hx : xs ≠ []) (hy : ys ≠ []) :
    joinAll op 0 (xs ++ ys) = op (joinAll op 0 xs) (joinAll op 0 ys) := by
  cases xs with
  | nil => exact absurd rfl hx
  | cons x xs =>
    cases ys with
    | nil => exact absurd rfl hy
    | cons y ys => simp only [joinAll, List.cons_append, List.foldl_append, List.foldl_cons]; exact foldl_assoc_cons assoc ys _ _

theorem Br.leaves_some (B : Br V) : B.leaves ≠ [] := by
  cases B with
  | leaf => simp [Br.leaves]
  | node l r => simp only [Br.leaves]; intro h; exact l.leaves_some (List.append_eq_nil_iff.1 h).1

/-- What a bracket is worth: the exact value, or nothing. -/
theorem Br.chk_some (assoc : ∀ x y z, op (op x y) z = op x (op y z)) (B : Br (Option Int)) : ∀ (xs : List Int) (v : Int), B.leaves = xs.map some →
    B.eval (chk op mn mx) = some v → v = joinAll op 0 xs := by
  induction B with
  | leaf w =>
    intro xs v hl he
    cases xs with
    | nil => simp [Br.leaves] at hl
    | cons x xs =>
      simp only [Br.leaves, List.map_cons, List.cons.injEq] at hl
      have : xs = [] := by cases xs <;> simp_all
      subst this
      simp only [Br.eval] at he
      rw [hl.1] at he
      exact (Option.some.inj he).symm
  | node l r ihl ihr =>
    intro xs v hl he
    obtain ⟨us, vs, rfl, h1, h2⟩ := List.map_eq_append_iff.1 hl.symm
    simp only [Br.eval] at he
    cases e1 : l.eval (chk op mn mx) with
    | none => rw [e1] at he; simp [chk] at he
    | some x =>
      cases e2 : r.eval (chk op mn mx) with
      | none => rw [e1, e2] at he; simp [chk] at he
      | some y =>
        rw [e1, e2] at he
        have hx := ihl us x h1.symm e1
        have hy := ihr vs y h2.symm e2
        simp only [chk] at he
        split at he
        · have hu : us ≠ [] := by rintro rfl; exact l.leaves_some (by simpa using h1.symm)
          have hv : vs ≠ [] := by rintro rfl; exact r.leaves_some (by simpa using h2.symm)
          rw [joinAll_split assoc hu hv, ← hx, ← hy]
          exact (Option.some.inj he).symm
        · cases he

/-- A bracket all of whose sections fit is a number. -/
theorem Br.chk_fits (assoc : ∀ x y z, op (op x y) z = op x (op y z)) (B : Br (Option Int)) : ∀ (xs : List Int), B.leaves = xs.map some →
    (∀ us ms vs, xs = us ++ ms ++ vs → ms ≠ [] → mn ≤ joinAll op 0 ms ∧ joinAll op 0 ms ≤ mx) → B.eval (chk op mn mx) = some (joinAll op 0 xs) := by
  induction B with
  | leaf w =>
    intro xs hl _
    cases xs with
    | nil => simp [Br.leaves] at hl
    | cons x xs =>
      simp only [Br.leaves, List.map_cons, List.cons.injEq] at hl
      have : xs = [] := by cases xs <;> simp_all
      subst this
      exact hl.1
  | node l r ihl ihr =>
    intro xs hl hf
    obtain ⟨us, vs, rfl, h1, h2⟩ := List.map_eq_append_iff.1 hl.symm
    have hu : us ≠ [] := by rintro rfl; exact l.leaves_some (by simpa using h1.symm)
    have hv : vs ≠ [] := by rintro rfl; exact r.leaves_some (by simpa using h2.symm)
    have e1 := ihl us h1.symm fun a m b e hm => hf a m (b ++ vs) (by rw [e]; simp) hm
    have e2 := ihr vs h2.symm fun a m b e hm => hf (us ++ a) m b (by rw [e]; simp) hm
    have hw := hf [] (us ++ vs) [] (by simp) (by simp [hu])
    rw [joinAll_split assoc hu hv] at hw ⊢
    simp only [Br.eval, e1, e2, chk]
    rw [if_pos hw]

theorem slice_section {xs us ms vs : List Int} (h : xs = us ++ ms ++ vs) (hm : ms ≠ []) :
    ms = slice xs us.length (us.length + ms.length - 1) ∧ us.length ≤ us.length + ms.length - 1 ∧ us.length + ms.length - 1 < xs.length := by
  have hp : 0 < ms.length := List.length_pos_iff.2 hm
  refine ⟨?_, by omega, by rw [h]; simp; omega⟩
  unfold slice
  rw [h, List.append_assoc, List.drop_left, show us.length + ms.length - 1 + 1 - us.length = ms.length by omega, List.take_left]

theorem slice_parts {xs : List Int} {a b : Nat} (hab : a ≤ b) (hb : b < xs.length) : xs = xs.take a ++ slice xs a b ++ xs.drop (b + 1) := by
  unfold slice
  rw [List.append_assoc]
  conv => lhs; rw [← List.take_append_drop a xs]
  congr 1
  conv => lhs; rw [← List.take_append_drop (b + 1 - a) (xs.drop a)]
  rw [List.drop_drop, show a + (b + 1 - a) = b + 1 by omega]

/-- The tree stands for a bracket of all elements. -/
theorem signed_build (need : Nat → Nat) (hneed : Roomy need) (t : SegT (Option Int) Unit) (input : List Int) (number : Nat) (hW : input.length ≤ W)
    (hne : input.take number ≠ []) :
    ∃ t' B, build (plain (chk op mn mx) (some 0)) need t (input.map some) number = .ok t' ∧ THolds (plain (chk op mn mx) (some 0)) t' B ∧
      B.leaves = (input.take number).map some := by
  obtain ⟨t', B, h1, h2, h3⟩ := build_holds (X := plain (chk op mn mx) (some 0)) rfl hneed t (input.map some) number (by simpa using hW)
    (by rw [← List.map_take]; simpa using hne)
  refine ⟨t', B, h1, h2, ?_⟩
  rw [h3, ← List.map_take]
  apply List.ext_getElem?
  intro k
  rw [List.getElem?_mapIdx]
  simp [plain]

/-- The value of every node is that of a part of the bracket. -/
theorem Holds.reached {X : Transform T V U} {h : List (RNode V U)} {B : Br V} {b : Nat} (r : Holds X h 0 0 b B) {n : RNode V U} (hr : Reached h n) :
    ∃ a b' B', Holds X h n.index a b' B' ∧ h[n.index]? = some n ∧ (∀ P : Br V → Prop, P B → (∀ l r, P (.node l r) → P l ∧ P r) → P B') := by
  induction hr with
  | root hn =>
    obtain ⟨m, hm, -, -, hi, -⟩ := r.root
    rw [hn] at hm; obtain rfl := Option.some.inj hm
    exact ⟨0, b, B, by rw [hi]; exact r, by rw [hi]; exact hn, fun P h _ => h⟩
  | left _ hb hc ih =>
    obtain ⟨a, b', B', hh, hn, hP⟩ := ih
    cases hh with
    | leaf hn' hs he hi => rw [hn] at hn'; obtain rfl := Option.some.inj hn'; omega
    | node hab hn' hs he hi hl hr hz hv =>
      obtain ⟨m, hm, -, -, hi', -⟩ := hl.root
      rw [hc] at hm; obtain rfl := Option.some.inj hm
      exact ⟨_, _, _, by rw [hi']; exact hl, by rw [hi']; exact hc, fun P h1 h2 => (h2 _ _ (hP P h1 h2)).1⟩
  | right _ hb hc ih =>
    obtain ⟨a, b', B', hh, hn, hP⟩ := ih
    cases hh with
    | leaf hn' hs he hi => rw [hn] at hn'; obtain rfl := Option.some.inj hn'; omega
    | node hab hn' hs he hi hl hr hz hv =>
      obtain ⟨m, hm, -, -, hi', -⟩ := hr.root
      rw [hc] at hm; obtain rfl := Option.some.inj hm
      exact ⟨_, _, _, by rw [hi']; exact hr, by rw [hi']; exact hc, fun P h1 h2 => (h2 _ _ (hP P h1 h2)).2⟩

/-! ### C202 -/

/-- No overflow: if all sections fit the type, `build` and every sequence of queries are free of overflow and every answer is exact. -/
theorem C202_fits (assoc : ∀ x y z, op (op x y) z = op x (op y z)) (need : Nat → Nat) (hneed : Roomy need) (t : SegT (Option Int) Unit)
    (input : List Int) (number : Nat) (hW : input.length ≤ W) (hne : input.take number ≠ []) (hf : SectionsFit op mn mx (input.take number)) :
    ∃ t', build (plain (chk op mn mx) (some 0)) need t (input.map some) number = .ok t' ∧ (∀ n, Reached t'.heap n → n.value ≠ none) ∧
      ∀ qs : List (Nat × Nat), queries (plain (chk op mn mx) (some 0)) t' qs = .ok (qs.map fun q =>
        some (total op (input.take number) (lo (input.take number).length q.1 q.2) (hi (input.take number).length q.1 q.2))) := by
  obtain ⟨t', B, h1, h2, h3⟩ := signed_build (op := op) (mn := mn) (mx := mx) need hneed t input number hW hne
  generalize input.take number = xs at *
  have hsec : ∀ us ms vs, xs = us ++ ms ++ vs → ms ≠ [] → mn ≤ joinAll op 0 ms ∧ joinAll op 0 ms ≤ mx := by
    intro us ms vs e hm
    obtain ⟨s1, s2, s3⟩ := slice_section e hm
    have := hf _ _ s2 s3
    unfold total at this
    rw [← s1] at this
    exact this
  refine ⟨t', h1, fun n hn => ?_, fun qs => ?_⟩
  · obtain ⟨a, b', B', hh, hi, hP⟩ := h2.holds.reached hn
    obtain ⟨m, hm, -, -, -, hv, -⟩ := hh.root
    rw [hi] at hm; obtain rfl := Option.some.inj hm
    have hB : B.eval (chk op mn mx) ≠ none := by rw [B.chk_fits assoc xs h3 hsec]; simp
    rw [hv]
    refine hP (fun b => b.eval (chk op mn mx) ≠ none) hB fun l r h => ⟨fun e => h ?_, fun e => h ?_⟩
    · simp [Br.eval, e, chk]
    · simp only [Br.eval, e]; cases l.eval (chk op mn mx) <;> rfl
  · induction qs with
    | nil => rfl
    | cons q qs ih =>
      obtain ⟨Q, q1, q2, -⟩ := h2.query q.1 q.2
      have hlen : B.leaves.length = xs.length := by rw [h3]; simp
      have hpos : 0 < xs.length := List.length_pos_iff.2 hne
      rw [hlen, h3] at q2
      have hql : Q.leaves = (slice xs (lo xs.length q.1 q.2) (hi xs.length q.1 q.2)).map some := by
        rw [q2]; simp [slice, List.map_take, List.map_drop]
      have hb : hi xs.length q.1 q.2 < xs.length := by unfold hi; omega
      have hab : lo xs.length q.1 q.2 ≤ hi xs.length q.1 q.2 := by unfold lo hi; omega
      have ev := Q.chk_fits (mn := mn) (mx := mx) assoc _ hql fun us ms vs e hm => by
        refine hsec (xs.take (lo xs.length q.1 q.2) ++ us) ms (vs ++ xs.drop (hi xs.length q.1 q.2 + 1)) ?_ hm
        conv => lhs; rw [slice_parts hab hb, e]
        simp
      have q1' : query (plain (chk op mn mx) (some 0)) t' q.1 q.2 = .ok (some (total op xs (lo xs.length q.1 q.2) (hi xs.length q.1 q.2)), t') := by
        rw [q1]; show Res.ok (Q.eval (chk op mn mx), t') = _; rw [ev]; rfl
      obtain ⟨a, b⟩ := q
      simp only [queries, List.map_cons]
      rw [q1', Res.bind_ok]
      simp only
      rw [ih, Res.bind_ok]

/-- Exactly then: a section of two or more elements that does not fit makes the query for it overflow. -/
theorem C202_exact (assoc : ∀ x y z, op (op x y) z = op x (op y z)) (need : Nat → Nat) (hneed : Roomy need) (t : SegT (Option Int) Unit)
    (input : List Int) (number : Nat) (hW : input.length ≤ W) (hne : input.take number ≠ []) (hin : ∀ x ∈ input, mn ≤ x ∧ x ≤ mx) :
    ∃ t', build (plain (chk op mn mx) (some 0)) need t (input.map some) number = .ok t' ∧
      ((∀ a b, ∃ v, query (plain (chk op mn mx) (some 0)) t' a b = .ok (some v, t')) ↔ SectionsFit op mn mx (input.take number)) := by
  obtain ⟨t', B, h1, h2, h3⟩ := signed_build (op := op) (mn := mn) (mx := mx) need hneed t input number hW hne
  refine ⟨t', h1, fun h a b hab hb => ?_, fun hf a b => ?_⟩
  · obtain ⟨v, hv⟩ := h a b
    obtain ⟨Q, q1, q2, -⟩ := h2.query a b
    rw [hv] at q1
    have qe : some v = Q.eval (chk op mn mx) := congrArg Prod.fst (Res.ok.inj q1)
    have hlen : B.leaves.length = (input.take number).length := by rw [h3]; simp
    have hl : lo (input.take number).length a b = a := by unfold lo; omega
    have hh : hi (input.take number).length a b = b := by unfold hi; omega
    rw [hlen, h3, hl, hh] at q2
    have hql : Q.leaves = (slice (input.take number) a b).map some := by rw [q2]; simp [slice, List.map_take, List.map_drop]
    have hval := Q.chk_some assoc _ v hql qe.symm
    show mn ≤ joinAll op 0 _ ∧ joinAll op 0 _ ≤ mx
    rw [← hval]
    cases Q with
    | leaf w =>
      simp only [Br.eval] at qe
      have : some v ∈ (slice (input.take number) a b).map some := by rw [← hql, qe]; simp [Br.leaves]
      obtain ⟨x, hx, e⟩ := List.mem_map.1 this
      obtain rfl := Option.some.inj e
      exact hin x (List.mem_of_mem_take (List.mem_of_mem_drop (List.mem_of_mem_take hx)))
    | node l r =>
      simp only [Br.eval] at qe
      cases e1 : l.eval (chk op mn mx) with
      | none => rw [e1] at qe; simp [chk] at qe
      | some x =>
        cases e2 : r.eval (chk op mn mx) with
        | none => rw [e1, e2] at qe; simp [chk] at qe
        | some y =>
          rw [e1, e2] at qe
          simp only [chk] at qe
          split at qe
          · next c => rw [Option.some.inj qe]; exact c
          · cases qe
  · obtain ⟨t2, e, -, hq⟩ := C202_fits assoc need hneed t input number hW hne hf
    rw [h1] at e
    obtain rfl := Res.ok.inj e
    have := hq [(a, b)]
    obtain ⟨Q, q1, -⟩ := h2.query a b
    simp only [queries, q1, Res.bind_ok, List.map_cons, List.map_nil, Res.ok.injEq, List.cons.injEq, and_true] at this
    exact ⟨_, by rw [q1]; exact congrArg (fun v => Res.ok (v, t')) this⟩

/-- Sums and products of `int`. -/
theorem C202_int (need : Nat → Nat) (hneed : Roomy need) (op : Int → Int → Int) (ho : op = (· + ·) ∨ op = (· * ·))
    (input : List Int) (hW : input.length ≤ W) (hne : input ≠ []) (hin : ∀ x ∈ input, -2 ^ 31 ≤ x ∧ x ≤ 2 ^ 31 - 1) :
    ∃ t', build (plain (chk op (-2 ^ 31) (2 ^ 31 - 1)) (some 0)) need .new (input.map some) input.length = .ok t' ∧
      ((∀ a b, ∃ v, query (plain (chk op (-2 ^ 31) (2 ^ 31 - 1)) (some 0)) t' a b = .ok (some v, t')) ↔
        SectionsFit op (-2 ^ 31) (2 ^ 31 - 1) input) := by
  have assoc : ∀ x y z, op (op x y) z = op x (op y z) := by
    rcases ho with rfl | rfl
    · exact Int.add_assoc
    · exact Int.mul_assoc
  have := C202_exact (op := op) (mn := -2 ^ 31) (mx := 2 ^ 31 - 1) assoc need hneed .new input input.length hW (by rwa [List.take_length]) hin
  rwa [List.take_length] at this

-- the sum of everything fits (and is 5), but building the tree overflows in the left half: the whole sum is lost, the right half is not
example : (build (plain (chk (· + ·) (-8) 7) (some 0)) exactNeed .new ([6, 5, -6, 0].map some) 4 >>= fun t =>
      queries (plain (chk (· + ·) (-8) 7) (some 0)) t [(0, 3), (1, 2), (2, 3), (0, 1)]) = .ok [none, some (-1), some (-6), none] := by decide +kernel

example : (build (plain (chk (· * ·) (-8) 7) (some 0)) exactNeed .new ([2, 3, -1, 1, 1].map some) 5 >>= fun t =>
      queries (plain (chk (· * ·) (-8) 7) (some 0)) t [(0, 4), (1, 2), (9, 3)]) = .ok [some (-6), some (-3), some 1] := by decide +kernel

end Verif.Seg
