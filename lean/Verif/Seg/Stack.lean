import Verif.Seg.Cost
import Mathlib.Data.Nat.Log

/-!
C208: the stack the recursive functions of `structures/segment_tree.h` need.

`rangeQuery`, `rangeUpdate` and `buildNode` of Model.lean have as first argument the number of nested calls they may still make, and are undefined without room; the
public functions there give them more than they ever need.  Here the stack has room for `K` nested calls.  Calls of `transform` do not count.
-/

namespace Verif.Seg
open Spec Verif.Heap
set_option linter.unusedSectionVars false
variable {T V U : Type} {X : Transform T V U}

/-- segment_tree.h:178-187 `query` on a stack with room for `K` nested calls of `_range_query`. -/
def queryS (X : Transform T V U) (K : Nat) (t : SegT V U) (a b : Nat) : Res (V × SegT V U) :=
  if t.built = false then .exc .notBuilt
  else do
    let s := min (min a b) (lastPos t)
    let e := min (max a b) (lastPos t)
    let _ ← Heap.head t.heap
    let (v, h) ← rangeQuery X K s e 0 t.heap
    .ok (v, { t with heap := h })

/-- segment_tree.h:195-203 `query_update` with room for `K` nested calls of `_range_update`. -/
def queryUpdateS (X : Transform T V U) (K : Nat) (t : SegT V U) (a b : Nat) (change : U) : Res (V × SegT V U) :=
  if t.built = false then .exc .notBuilt
  else do
    let s := min (min a b) (lastPos t)
    let e := min (max a b) (lastPos t)
    let _ ← Heap.head t.heap
    let (v, h) ← rangeUpdate X change K s e 0 t.heap
    .ok (v, { t with heap := h })

/-- segment_tree.h:447-459 `build`, the constructor and `rebuild` with room for `K` nested calls of `build(input, range)` (l.466-489). -/
def buildS (X : Transform T V U) (need : Nat → Nat) (K : Nat) (t : SegT V U) (input : List T) (number : Nat) : Res (SegT V U) := do
  let size := if number < input.length then number else input.length
  if size ≠ 0 then
    let newSize := need size
    let h := if t.heap.length < newSize then resize (dfltNode X) t.heap newSize else t.heap
    let h ← wrAt h 0 ⟨0, size - 1, 0, X.dflt, X.none⟩
    let h ← buildNode X input K 0 h
    .ok ⟨size, true, h⟩
  else .ok { t with size := size }

/-! ### Queries and updates -/

theorem walk_stack (K : Keeps X) {stp : RNode V U → Bool} {f : RNode V U → RNode V U} (hf : ∀ n, SameBox n (f n))
    (d : Nat) : ∀ {h : List (RNode V U)} {i a b s e : Nat},
    Shape h i a b → a ≤ s → s ≤ e → e ≤ b → b - a < 2 ^ d →
    ∃ v h', (∀ fuel, d < fuel → walk X stp f fuel s e i h = .ok (v, h')) ∧ SameBoxes h h' := by
  induction d with
  | zero =>
    intro h i a b s e rep h1 h2 h3 hd
    cases rep with
    | leaf hn hs he hi =>
      rename_i n
      have hlf : n.leaf = true := by simp [RNode.leaf, hs, he]
      refine ⟨(f n).value, put h i (f n), fun fuel hfu => ?_, .put hn (hf n)⟩
      obtain ⟨g, rfl⟩ : ∃ g, fuel = g + 1 := ⟨fuel - 1, by omega⟩
      unfold walk
      rw [rd_some hn]
      simp only [Res.bind_ok]
      rw [if_pos ⟨⟨by omega, by omega⟩, .inl hlf⟩]
    | node hab => omega
  | succ d ih =>
    intro h i a b s e rep h1 h2 h3 hd
    rw [Nat.pow_succ] at hd
    cases rep with
    | leaf hn hs he hi =>
      rename_i n
      have hlf : n.leaf = true := by simp [RNode.leaf, hs, he]
      refine ⟨(f n).value, put h i (f n), fun fuel hfu => ?_, .put hn (hf n)⟩
      obtain ⟨g, rfl⟩ : ∃ g, fuel = g + 1 := ⟨fuel - 1, by omega⟩
      unfold walk
      rw [rd_some hn]
      simp only [Res.bind_ok]
      rw [if_pos ⟨⟨by omega, by omega⟩, .inl hlf⟩]
    | node hab hn hs he hi hl hr =>
      rename_i n
      have hlf : n.leaf = false := by simp [RNode.leaf]; omega
      by_cases c : (n.start = s ∧ e = n.stop) ∧ (n.leaf = true ∨ stp n = true)
      · refine ⟨(f n).value, put h i (f n), fun fuel hfu => ?_, .put hn (hf n)⟩
        obtain ⟨g, rfl⟩ : ∃ g, fuel = g + 1 := ⟨fuel - 1, by omega⟩
        unfold walk
        rw [rd_some hn]
        simp only [Res.bind_ok]
        rw [if_pos c]
      · have hcen : n.center = (a + b) / 2 := by rw [RNode.center, hs, he]
        obtain ⟨l, hl', -⟩ := hl.root
        obtain ⟨r, hr', -⟩ := hr.root
        generalize eh : (if X.has n.lazy = true then put (put (put h i (X.propagate n l r).1) (2 * i + 1)
          (X.propagate n l r).2.1) (2 * i + 2) (X.propagate n l r).2.2 else h) = hh1
        have sb : SameBoxes h hh1 := by
          rw [← eh]
          split
          · obtain ⟨k1, k2, k3⟩ := K.propagate n l r
            have g1 := SameBoxes.put hn k1
            have q1 : (put h i (X.propagate n l r).1)[2 * i + 1]? = some l := by
              simp only [put, List.getElem?_set, if_neg (show ¬ i = 2 * i + 1 by omega)]; exact hl'
            have g2 := SameBoxes.put q1 k2
            have q2 : (put (put h i (X.propagate n l r).1) (2 * i + 1) (X.propagate n l r).2.1)[2 * i + 2]? = some r := by
              simp only [put, List.getElem?_set, if_neg (show ¬ i = 2 * i + 2 by omega),
                if_neg (show ¬ 2 * i + 1 = 2 * i + 2 by omega)]; exact hr'
            exact (g1.trans g2).trans (SameBoxes.put q2 k3)
          · exact .refl h
        have hl1 := hl.same sb
        have hr1 := hr.same sb
        have fin : ∀ (h3 : List (RNode V U)) (v : V), SameBoxes h h3 →
            ∃ v' h', (do
              let n ← rd h3 i
              let l ← rd h3 (2 * i + 1)
              let r ← rd h3 (2 * i + 2)
              Res.ok (v, put h3 i { n with value := X.join l.value r.value })) = .ok (v', h') ∧ SameBoxes h h' := by
          intro h3 v k
          obtain ⟨n3, g1, -⟩ := k.2 i n hn
          obtain ⟨l3, g2, -⟩ := k.2 _ l hl'
          obtain ⟨r3, g3, -⟩ := k.2 _ r hr'
          rw [rd_some g1, rd_some g2, rd_some g3]
          exact ⟨_, _, rfl, k.trans (.put g1 ⟨rfl, rfl, rfl⟩)⟩
        by_cases c1 : s ≤ (a + b) / 2 ∧ e > (a + b) / 2
        · obtain ⟨v2, h2', w1, w2⟩ := ih hl1 h1 c1.1 (Nat.le_refl _) (by omega)
          obtain ⟨v3, h3', y1, y2⟩ := ih (hr1.same w2) (Nat.le_refl _) (show _ ≤ e by omega) h3 (by omega)
          obtain ⟨v', h', e1, e2⟩ := fin h3' (X.join v2 v3) ((sb.trans w2).trans y2)
          refine ⟨v', h', fun fuel hfu => ?_, e2⟩
          obtain ⟨g, rfl⟩ : ∃ g, fuel = g + 1 := ⟨fuel - 1, by omega⟩
          unfold walk
          rw [rd_some hn]
          simp only [Res.bind_ok]
          rw [if_neg c, if_pos hlf, hi, leftOf_eq, rightOf_eq, rd_some hl', rd_some hr', hcen]
          simp only [Res.bind_ok]
          rw [eh, if_pos c1, w1 g (by omega)]; simp only [Res.bind_ok]
          rw [y1 g (by omega)]; simp only [Res.bind_ok]
          exact e1
        · by_cases c2 : s ≤ (a + b) / 2
          · obtain ⟨v2, h2', w1, w2⟩ := ih hl1 h1 h2 (show e ≤ _ by omega) (by omega)
            obtain ⟨v', h', e1, e2⟩ := fin h2' v2 (sb.trans w2)
            refine ⟨v', h', fun fuel hfu => ?_, e2⟩
            obtain ⟨g, rfl⟩ : ∃ g, fuel = g + 1 := ⟨fuel - 1, by omega⟩
            unfold walk
            rw [rd_some hn]
            simp only [Res.bind_ok]
            rw [if_neg c, if_pos hlf, hi, leftOf_eq, rightOf_eq, rd_some hl', rd_some hr', hcen]
            simp only [Res.bind_ok]
            rw [eh, if_neg c1, if_pos c2, w1 g (by omega)]; simp only [Res.bind_ok]
            exact e1
          · obtain ⟨v2, h2', w1, w2⟩ := ih hr1 (show _ ≤ s by omega) h2 h3 (by omega)
            obtain ⟨v', h', e1, e2⟩ := fin h2' v2 (sb.trans w2)
            refine ⟨v', h', fun fuel hfu => ?_, e2⟩
            obtain ⟨g, rfl⟩ : ∃ g, fuel = g + 1 := ⟨fuel - 1, by omega⟩
            unfold walk
            rw [rd_some hn]
            simp only [Res.bind_ok]
            rw [if_neg c, if_pos hlf, hi, leftOf_eq, rightOf_eq, rd_some hl', rd_some hr', hcen]
            simp only [Res.bind_ok]
            rw [eh, if_neg c1, if_neg c2, if_pos (by omega), w1 g (by omega)]; simp only [Res.bind_ok]
            exact e1

theorem clog_lt {n : Nat} (h : 0 < n) : Nat.clog 2 n < n := by
  refine Nat.lt_of_le_of_lt (Nat.clog_le_of_le_pow (y := n - 1) ?_) (by omega)
  have := Nat.lt_two_pow_self (n := n - 1)
  omega

theorem queryS_enough (K : Keeps X) {t : SegT V U} (r : TShape t) (a b d k : Nat) (u : U) (hd : t.size ≤ 2 ^ d) (hk : d < k) :
    queryS X k t a b = query X t a b ∧ queryUpdateS X k t a b u = queryUpdate X t a b u := by
  have h1 := r.pos
  have h2 := r.cap
  have hc := clog_lt h1
  have hp : t.size ≤ 2 ^ Nat.clog 2 t.size := Nat.le_pow_clog (by omega) _
  have hle : Nat.clog 2 t.size ≤ d := Nat.clog_le_of_le_pow hd
  constructor
  · unfold queryS query
    rw [lastPos_eq r]
    obtain ⟨v, h', w1, -⟩ := walk_stack K (stp := fun n => !X.has n.lazy) (f := fun n => n) (fun _ => ⟨rfl, rfl, rfl⟩)
      (Nat.clog 2 t.size) r.shape (s := min (min a b) (t.size - 1)) (e := min (max a b) (t.size - 1)) (Nat.zero_le _)
      (by omega) (by omega) (by omega)
    simp only [rangeQuery_eq_walk, w1 k (by omega), w1 t.heap.length (by omega)]
  · unfold queryUpdateS queryUpdate
    rw [lastPos_eq r]
    obtain ⟨v, h', w1, -⟩ := walk_stack K (stp := fun n => !X.has n.lazy || X.criteria n)
      (f := fun n => if X.has u then X.apply n u else n) (fun n => by split; exact K.apply n u; exact ⟨rfl, rfl, rfl⟩)
      (Nat.clog 2 t.size) r.shape (s := min (min a b) (t.size - 1)) (e := min (max a b) (t.size - 1)) (Nat.zero_le _)
      (by omega) (by omega) (by omega)
    simp only [rangeUpdate_eq_walk, w1 k (by omega), w1 t.heap.length (by omega)]

/-! ### Building -/

theorem buildNode_succ (input : List T) (fuel : Nat) : ∀ (i : Nat) (h h' : List (RNode V U)),
    buildNode X input fuel i h = .ok h' → buildNode X input (fuel + 1) i h = .ok h' := by
  induction fuel with
  | zero => intro i h h' e; cases e
  | succ fuel ih =>
    intro i h h' e
    unfold buildNode at e ⊢
    obtain ⟨n, e1, e⟩ := Res.bind_eq_ok.1 e
    rw [e1, Res.bind_ok]
    by_cases c : n.stop > n.start
    · rw [if_pos c] at e ⊢
      dsimp only at e ⊢
      obtain ⟨l, e2, e⟩ := Res.bind_eq_ok.1 e
      obtain ⟨r, e3, e⟩ := Res.bind_eq_ok.1 e
      obtain ⟨h1, e4, e⟩ := Res.bind_eq_ok.1 e
      obtain ⟨h2, e5, e⟩ := Res.bind_eq_ok.1 e
      rw [e2, Res.bind_ok, e3, Res.bind_ok]
      rw [ih _ _ _ e4, Res.bind_ok]
      rw [ih _ _ _ e5, Res.bind_ok]
      exact e
    · rw [if_neg c] at e ⊢
      exact e

theorem buildNode_mono (input : List T) (fuel j : Nat) {i : Nat} {h h' : List (RNode V U)}
    (e : buildNode X input fuel i h = .ok h') : buildNode X input (fuel + j) i h = .ok h' := by
  induction j with
  | zero => exact e
  | succ j ih => exact buildNode_succ input _ _ _ _ ih

theorem buildNode_enough (input : List T) {h : List (RNode V U)} {n d fuel : Nat} (h0 : h[0]? = some ⟨0, n - 1, 0, X.dflt, X.none⟩)
    (hn : 0 < n) (hlen : n ≤ input.length) (htop : top n 1 ≤ h.length) (hd : n ≤ 2 ^ d) (hf : d < fuel) :
    ∃ h', buildNode X input fuel 0 h = .ok h' := by
  obtain ⟨h', b1, -⟩ := buildNode_spec (X := erase X) (P := fun _ => True) (act := fun _ _ _ v => v) rfl trivial (fun _ _ _ => rfl) input fuel
    (h := h.map eraseNode) (i := 0) (a := 0) (b := n - 1) (d := d) (n := ⟨0, n - 1, 0, (), X.none⟩)
    (by rw [List.getElem?_map, h0]; rfl) rfl rfl rfl rfl (by omega) (by omega) (by omega)
    (by rw [List.length_map, show n - 1 + 1 - 0 = n by omega]; exact htop) hf
  rw [buildNode_erase] at b1
  cases e : buildNode X input fuel 0 h with
  | ok h' => exact ⟨h', rfl⟩
  | exc x => rw [e] at b1; cases b1
  | ub => rw [e] at b1; cases b1

theorem buildS_enough {need : Nat → Nat} (hneed : Roomy need) (t : SegT V U) (input : List T) (number d K : Nat)
    (hb : input.length ≤ W) (hd : min number input.length ≤ 2 ^ d) (hK : d < K) :
    buildS X need K t input number = build X need t input number := by
  have hsize : (if number < input.length then number else input.length) = min number input.length := by
    split <;> omega
  unfold buildS build
  simp only [hsize]
  generalize hn : min number input.length = n at *
  by_cases c : n ≠ 0
  · rw [if_pos c, if_pos c]
    have hnd := hneed n (by omega) (by omega)
    have htop := top_ge n 1
    generalize hh : (if t.heap.length < need n then resize (dfltNode X) t.heap (need n) else t.heap) = h
    have hhl : h.length = max t.heap.length (need n) := by
      rw [← hh]; split
      · simp [resize]; omega
      · omega
    have h0 : 0 < h.length := by omega
    unfold wrAt
    rw [if_pos h0]
    simp only [Res.bind_ok]
    have hc := clog_lt (n := n) (by omega)
    obtain ⟨h1, e1⟩ := buildNode_enough (X := X) input (h := h.set 0 ⟨0, n - 1, 0, X.dflt, X.none⟩) (n := n) (d := Nat.clog 2 n)
      (fuel := Nat.clog 2 n + 1) (by simp [h0]) (by omega) (by omega) (by simp only [List.length_set]; omega)
      (Nat.le_pow_clog (by omega) _) (by omega)
    have hle : Nat.clog 2 n ≤ d := Nat.clog_le_of_le_pow hd
    have a1 := buildNode_mono input _ (K - (Nat.clog 2 n + 1)) e1
    have a2 := buildNode_mono input _ ((h.set 0 (⟨0, n - 1, 0, X.dflt, X.none⟩ : RNode V U)).length - (Nat.clog 2 n + 1)) e1
    rw [Nat.add_sub_of_le (by omega)] at a1
    rw [Nat.add_sub_of_le (by simp only [List.length_set]; omega)] at a2
    rw [a1, a2]
  · rw [if_neg c, if_neg c]

theorem buildNode_over (input : List T) (fuel : Nat) : ∀ {i : Nat} {h : List (RNode V U)} {n : RNode V U}, h[i]? = some n →
    n.start ≤ n.stop → 2 ^ fuel < 2 * (n.stop + 1 - n.start) → buildNode X input fuel i h = .ub := by
  induction fuel with
  | zero => intros; rfl
  | succ fuel ih =>
    intro i h n hn hle hlt
    rw [Nat.pow_succ] at hlt
    have hp : 0 < 2 ^ fuel := Nat.two_pow_pos fuel
    unfold buildNode
    rw [rd_some hn]
    simp only [Res.bind_ok]
    rw [if_pos (by omega), leftOf_eq, rightOf_eq]
    by_cases c1 : 2 * n.index + 1 < h.length
    · rw [rd_some (List.getElem?_eq_getElem c1)]
      simp only [Res.bind_ok]
      by_cases c2 : 2 * n.index + 2 < h.length
      · rw [rd_some (List.getElem?_eq_getElem c2)]
        simp only [Res.bind_ok]
        have hcen : n.center = (n.start + n.stop) / 2 := rfl
        rw [ih (n := { h[2 * n.index + 1] with start := n.start, stop := n.center, index := 2 * n.index + 1, lazy := X.none })]
        · rfl
        · simp only [put, List.getElem?_set, if_neg (show ¬ 2 * n.index + 2 = 2 * n.index + 1 by omega), if_pos trivial, List.length_set,
            if_pos c1]
        · show n.start ≤ n.center
          omega
        · show 2 ^ fuel < 2 * (n.center + 1 - n.start)
          omega
      · rw [rd, List.getElem?_eq_none (by omega)]; rfl
    · rw [rd, List.getElem?_eq_none (by omega)]; rfl

/-! ### C208 -/

/-- C208: after every history of calls, on a tree of at most `2^d` elements, queries, updates and rebuilding from at most `2^d` elements have their results if the
stack has room for more than `d` nested calls. -/
theorem C208_stack (X : Transform T V U) (hX : Keeps X) (need : Nat → Nat) (hneed : Roomy need)
    (input : List T) (number : Nat) (hb : input.length ≤ W) (hne : input.take number ≠ [])
    (ops : List (Op T U)) (hops : ∀ op ∈ ops, OpOk (fun _ => True) op) :
    ∃ t vs, run X need SegT.new (.rebuild input number :: ops) = .ok (t, vs) ∧ ∀ d K, d < K →
      (t.size ≤ 2 ^ d → ∀ a b u,
        (∃ r, query X t a b = .ok r ∧ queryS X K t a b = .ok r) ∧
        (∃ r, queryUpdate X t a b u = .ok r ∧ queryUpdateS X K t a b u = .ok r)) ∧
      (∀ (input' : List T) (number' : Nat), input'.length ≤ W → input'.take number' ≠ [] → (input'.take number').length ≤ 2 ^ d →
        ∃ t', build X need t input' number' = .ok t' ∧ buildS X need K t input' number' = .ok t') := by
  obtain ⟨t, e, r, -, -⟩ := build_shape (X := X) hneed SegT.new input number hb hne
  obtain ⟨t', vs, e2, r'⟩ := run_shape hX hneed ops r hops
  refine ⟨t', none :: vs, by simp only [run, e, Res.bind_ok, e2], fun d K hK => ⟨fun hd a b u => ?_, fun input' number' h1 h2 h3 => ?_⟩⟩
  · obtain ⟨q1, q2⟩ := queryS_enough hX r' a b d K u hd hK
    obtain ⟨⟨v, t1, p1, -⟩, ⟨w, t2, p2, -⟩⟩ := tshape_walk hX r' a b u
    exact ⟨⟨_, p1, by rw [q1, p1]⟩, ⟨_, p2, by rw [q2, p2]⟩⟩
  · obtain ⟨t1, p1, -⟩ := build_shape (X := X) hneed t' input' number' h1 h2
    exact ⟨t1, p1, by rw [buildS_enough hneed t' input' number' d K h1 (by simpa using h3) hK, p1]⟩

/-- C208: room for 65 nested calls is enough for every tree, as it has at most 2^64 elements. -/
theorem C208_any (X : Transform T V U) (hX : Keeps X) (need : Nat → Nat) (hneed : Roomy need)
    (input : List T) (number : Nat) (hb : input.length ≤ 2 ^ 64) (hne : input.take number ≠ [])
    (ops : List (Op T U)) (hops : ∀ op ∈ ops, OpOk (fun _ => True) op) :
    ∃ t vs, run X need SegT.new (.rebuild input number :: ops) = .ok (t, vs) ∧ ∀ a b u,
        (∃ r, query X t a b = .ok r ∧ queryS X 65 t a b = .ok r) ∧
        (∃ r, queryUpdate X t a b u = .ok r ∧ queryUpdateS X 65 t a b u = .ok r) := by
  obtain ⟨t, e, r, -, -⟩ := build_shape (X := X) hneed SegT.new input number hb hne
  obtain ⟨t', vs, e2, r'⟩ := run_shape hX hneed ops r hops
  obtain ⟨t1, vs1, h1, h2⟩ := C208_stack X hX need hneed input number hb hne ops hops
  have e3 : run X need SegT.new (.rebuild input number :: ops) = .ok (t', none :: vs) := by simp only [run, e, Res.bind_ok, e2]
  rw [e3] at h1
  injection h1 with h1
  injection h1 with h1 h1'
  subst h1
  exact ⟨t', none :: vs, e3, (h2 64 65 (by omega)).1 r'.bound⟩

/-- C208: the bound is exact: building a tree of more than `2^d` elements overflows a stack with room for `d + 1` nested calls or less. -/
theorem C208_exact (X : Transform T V U) (need : Nat → Nat) (t : SegT V U) (input : List T) (number d K : Nat)
    (hd : 2 ^ d < (input.take number).length) (hK : K ≤ d + 1) (hroom : 0 < need (input.take number).length) :
    buildS X need K t input number = .ub := by
  rw [List.length_take] at hd hroom
  have hsize : (if number < input.length then number else input.length) = min number input.length := by
    split <;> omega
  unfold buildS
  simp only [hsize]
  generalize hn : min number input.length = n at *
  have hp : 0 < 2 ^ d := Nat.two_pow_pos d
  rw [if_pos (by omega)]
  generalize hh : (if t.heap.length < need n then resize (dfltNode X) t.heap (need n) else t.heap) = h
  have h0 : 0 < h.length := by
    rw [← hh]; split
    · simp [resize]; omega
    · omega
  unfold wrAt
  rw [if_pos h0]
  simp only [Res.bind_ok]
  rw [buildNode_over input K (n := ⟨0, n - 1, 0, X.dflt, X.none⟩) (by simp [h0]) (Nat.zero_le _)]
  · rfl
  · show 2 ^ K < 2 * (n - 1 + 1 - 0)
    have : 2 ^ K ≤ 2 ^ (d + 1) := Nat.pow_le_pow_right (by omega) hK
    rw [Nat.pow_succ] at this
    omega

/-- Five numbers need four nested calls to build, and four of them for the query of the second. -/
example : (buildS addSum exactNeed 3 SegT.new [1, 2, 3, 4, 5] 9 = .ub) ∧
    (match buildS addSum exactNeed 4 SegT.new [1, 2, 3, 4, 5] 9 with
      | .ok t => (queryS addSum 4 t 1 1 == query addSum t 1 1) && (queryS addSum 3 t 1 1 == .ub) && (queryS addSum 1 t 0 4 == query addSum t 0 4)
          && (queryUpdateS addSum 4 t 1 3 7 == queryUpdate addSum t 1 3 7)
      | _ => false) = true := by decide +kernel

end Verif.Seg
