import Verif.Seg.Props
import Verif.Seg.ThrowRep

/-!
C170: the number of nodes that a call of `segment_tree_t` visits.

`walkC` is `walk` of Lemmas.lean, the common form of `_range_query` (segment_tree.h:336-382) and `_range_update`
(segment_tree.h:390-443), together with the number of calls, which is the number of nodes visited.
-/

namespace Verif.Seg
open Spec Verif.Heap
set_option linter.unusedSectionVars false
variable {T V U : Type} {X : Transform T V U}

/-- segment_tree.h:336-382 and 390-443, with the number of calls. -/
def walkC (X : Transform T V U) (stp : RNode V U → Bool) (f : RNode V U → RNode V U) :
    Nat → Nat → Nat → Nat → List (RNode V U) → Res (Nat × V × List (RNode V U))
  | 0, _, _, _, _ => .ub
  | fuel + 1, start, stop, i, h => do
    let n ← rd h i
    if (n.start = start ∧ stop = n.stop) ∧ (n.leaf = true ∨ stp n = true) then
      .ok (1, (f n).value, put h i (f n))
    else if n.leaf = false then
      let center := n.center
      let li := leftOf n.index
      let ri := rightOf n.index
      let l ← rd h li
      let r ← rd h ri
      let h :=
        if X.has n.lazy then
          let (n', l', r') := X.propagate n l r
          put (put (put h i n') li l') ri r'
        else h
      let (m, value, h) ←
        if start ≤ center ∧ stop > center then do
          let (m1, left, h) ← walkC X stp f fuel start center li h
          let (m2, right, h) ← walkC X stp f fuel (center + 1) stop ri h
          Res.ok (m1 + m2, X.join left right, h)
        else if start ≤ center then walkC X stp f fuel start stop li h
        else if stop > center then walkC X stp f fuel start stop ri h
        else Res.ub
      let n ← rd h i
      let l ← rd h li
      let r ← rd h ri
      .ok (m + 1, value, put h i { n with value := X.join l.value r.value })
    else .ub

/-- segment_tree.h:178-187 `query`, with the number of nodes visited. -/
def queryC (X : Transform T V U) (t : SegT V U) (a b : Nat) : Res (Nat × V × SegT V U) :=
  if t.built = false then .exc .notBuilt
  else do
    let s := min (min a b) (lastPos t)
    let e := min (max a b) (lastPos t)
    let _ ← Heap.head t.heap
    let (m, v, h) ← walkC X (fun n => !X.has n.lazy) (fun n => n) t.heap.length s e 0 t.heap
    .ok (m, v, { t with heap := h })

/-- segment_tree.h:195-203 `query_update`, with the number of nodes visited. -/
def queryUpdateC (X : Transform T V U) (t : SegT V U) (a b : Nat) (change : U) : Res (Nat × V × SegT V U) :=
  if t.built = false then .exc .notBuilt
  else do
    let s := min (min a b) (lastPos t)
    let e := min (max a b) (lastPos t)
    let _ ← Heap.head t.heap
    let (m, v, h) ← walkC X (fun n => !X.has n.lazy || X.criteria n) (fun n => if X.has change then X.apply n change else n)
      t.heap.length s e 0 t.heap
    .ok (m, v, { t with heap := h })

/-- Forget the number of nodes. -/
def drop1 {α β : Type} (r : Res (Nat × α × β)) : Res (α × β) := r >>= fun t => .ok t.2

theorem walkC_same (stp : RNode V U → Bool) (f : RNode V U → RNode V U) (fuel : Nat) : ∀ s e i h,
    drop1 (walkC X stp f fuel s e i h) = walk X stp f fuel s e i h := by
  induction fuel with
  | zero => intros; rfl
  | succ fuel ih =>
    intro s e i h
    unfold walkC walk
    cases rd h i with
    | exc x => rfl
    | ub => rfl
    | ok n =>
      simp only [Res.bind_ok]
      by_cases c : (n.start = s ∧ e = n.stop) ∧ (n.leaf = true ∨ stp n = true)
      · rw [if_pos c, if_pos c]; rfl
      rw [if_neg c, if_neg c]
      by_cases c : n.leaf = false
      · rw [if_pos c, if_pos c]
        cases rd h (leftOf n.index) with
        | exc x => rfl
        | ub => rfl
        | ok l =>
          cases rd h (rightOf n.index) with
          | exc x => rfl
          | ub => rfl
          | ok r =>
            simp only [Res.bind_ok]
            generalize (if X.has n.lazy = true then put (put (put h i (X.propagate n l r).1) (leftOf n.index)
              (X.propagate n l r).2.1) (rightOf n.index) (X.propagate n l r).2.2 else h) = h1
            have fin : ∀ (q : Res (Nat × V × List (RNode V U))) (q' : Res (V × List (RNode V U))), drop1 q = q' →
                drop1 (q >>= fun p => rd p.2.2 i >>= fun n' => rd p.2.2 (leftOf n.index) >>= fun l =>
                  rd p.2.2 (rightOf n.index) >>= fun r =>
                    .ok (p.1 + 1, p.2.1, put p.2.2 i { n' with value := X.join l.value r.value })) =
                q' >>= fun p => rd p.2 i >>= fun n' => rd p.2 (leftOf n.index) >>= fun l =>
                  rd p.2 (rightOf n.index) >>= fun r => .ok (p.1, put p.2 i { n' with value := X.join l.value r.value }) := by
              intro q q' hq
              subst hq
              cases q with
              | exc x => rfl
              | ub => rfl
              | ok p =>
                simp only [drop1, Res.bind_ok]
                cases rd p.2.2 i with
                | exc x => rfl
                | ub => rfl
                | ok n' =>
                  simp only [Res.bind_ok]
                  cases rd p.2.2 (leftOf n.index) with
                  | exc x => rfl
                  | ub => rfl
                  | ok l =>
                    simp only [Res.bind_ok]
                    cases rd p.2.2 (rightOf n.index) <;> rfl
            by_cases c1 : s ≤ n.center ∧ e > n.center
            · simp only [if_pos c1]
              rw [← ih]
              cases walkC X stp f fuel s n.center (leftOf n.index) h1 with
              | exc x => rfl
              | ub => rfl
              | ok p =>
                simp only [drop1, Res.bind_ok]
                rw [← ih]
                cases walkC X stp f fuel (n.center + 1) e (rightOf n.index) p.2.2 with
                | exc x => rfl
                | ub => rfl
                | ok p' => exact fin (.ok (p.1 + p'.1, X.join p.2.1 p'.2.1, p'.2.2)) _ rfl
            · simp only [if_neg c1]
              by_cases c2 : s ≤ n.center
              · simp only [if_pos c2]; exact fin _ _ (ih ..)
              · simp only [if_neg c2]
                by_cases c3 : e > n.center
                · simp only [if_pos c3]; exact fin _ _ (ih ..)
                · simp only [if_neg c3]; exact fin _ _ rfl
      · rw [if_neg c, if_neg c]; rfl

/-- The counting functions compute what `query` and `query_update` of Model.lean compute. -/
theorem C170_same (t : SegT V U) (a b : Nat) (u : U) :
    drop1 (queryC X t a b) = query X t a b ∧ drop1 (queryUpdateC X t a b u) = queryUpdate X t a b u := by
  have key : ∀ (q : Res (Nat × V × List (RNode V U))) (q' : Res (V × List (RNode V U))), drop1 q = q' →
      drop1 (q >>= fun p => .ok (p.1, p.2.1, { t with heap := p.2.2 })) = q' >>= fun p => .ok (p.1, { t with heap := p.2 }) := by
    intro q q' h
    subst h
    cases q <;> rfl
  constructor
  · unfold queryC query
    by_cases h : t.built = false
    · rw [if_pos h, if_pos h]; rfl
    · rw [if_neg h, if_neg h]
      simp only
      cases Heap.head t.heap with
      | exc x => rfl
      | ub => rfl
      | ok _ => simp only [Res.bind_ok, rangeQuery_eq_walk]; exact key _ _ (walkC_same ..)
  · unfold queryUpdateC queryUpdate
    by_cases h : t.built = false
    · rw [if_pos h, if_pos h]; rfl
    · rw [if_neg h, if_neg h]
      simp only
      cases Heap.head t.heap with
      | exc x => rfl
      | ub => rfl
      | ok _ => simp only [Res.bind_ok, rangeUpdate_eq_walk]; exact key _ _ (walkC_same ..)

/-! ### Bounds -/

/-- `stp` holds for every node of the heap. -/
def Calm (stp : RNode V U → Bool) (h : List (RNode V U)) : Prop := ∀ (j : Nat) (n : RNode V U), h[j]? = some n → stp n = true

/-- What keeps a heap calm. -/
structure Calming (X : Transform T V U) (stp : RNode V U → Bool) (f : RNode V U → RNode V U) : Prop where
  value : ∀ n v, stp n = true → stp { n with value := v } = true
  final : ∀ n, stp n = true → stp (f n) = true
  propagate : ∀ n l r, stp n = true → stp l = true → stp r = true → X.has n.lazy = true →
    stp (X.propagate n l r).1 = true ∧ stp (X.propagate n l r).2.1 = true ∧ stp (X.propagate n l r).2.2 = true

theorem Calm.put {stp : RNode V U → Bool} {h : List (RNode V U)} (c : Calm stp h) (i : Nat) {n : RNode V U} (hn : stp n = true) :
    Calm stp (put h i n) := by
  intro j m hm
  simp only [Seg.put, List.getElem?_set] at hm
  split at hm
  · split at hm
    · injection hm with hm; subst hm; exact hn
    · cases hm
  · exact c j m hm

/-- The number of nodes visited for `[s, e]` under a node for `[a, b]` of height `d`, if every node that matches is final. -/
def bound (d a b s e : Nat) : Nat :=
  if s = a ∧ e = b then 1 else if s = a ∨ e = b then 2 * d else 4 * d - 3

/-- The number of nodes visited for `[s, e]` under a node for `[a, b]` of height `d`, if every node can have pending updates. -/
def slow (d a b s e : Nat) : Nat :=
  2 * (e - s) + 1 + if s = a ∧ e = b then 0 else if s = a ∨ e = b then d else 2 * d

theorem walkC_shape (K : Keeps X) {stp : RNode V U → Bool} {f : RNode V U → RNode V U} (hf : ∀ n, SameBox n (f n))
    (fuel : Nat) : ∀ {h : List (RNode V U)} {i a b s e : Nat},
    Shape h i a b → a ≤ s → s ≤ e → e ≤ b → b - a < fuel →
    ∃ m v h', walkC X stp f fuel s e i h = .ok (m, v, h') ∧ SameBoxes h h' ∧ m ≤ 2 * (b - a) + 1 ∧ (∀ d, b - a < 2 ^ d → m ≤ slow d a b s e) ∧
      (Calming X stp f → Calm stp h → Calm stp h' ∧ ∀ d, b - a < 2 ^ d → m ≤ bound d a b s e) := by
  induction fuel with
  | zero => intro h i a b s e _ _ _ _ hf; omega
  | succ fuel ih =>
    intro h i a b s e rep h1 h2 h3 hfu
    unfold walkC
    cases rep with
    | leaf hn hs he hi =>
      rename_i n
      rw [rd_some hn]
      have hlf : n.leaf = true := by simp [RNode.leaf, hs, he]
      simp only [Res.bind_ok]
      rw [if_pos ⟨⟨by omega, by omega⟩, .inl hlf⟩]
      refine ⟨_, _, _, rfl, .put hn (hf n), by omega, fun d _ => by unfold slow; omega, fun C c => ⟨c.put i (C.final n (c i n hn)), fun d _ => ?_⟩⟩
      rw [bound, if_pos (by omega)]
      exact Nat.le_refl _
    | node hab hn hs he hi hl hr =>
      rename_i n
      rw [rd_some hn]
      simp only [Res.bind_ok]
      have hlf : n.leaf = false := by simp [RNode.leaf]; omega
      by_cases c : (n.start = s ∧ e = n.stop) ∧ (n.leaf = true ∨ stp n = true)
      · rw [if_pos c]
        refine ⟨_, _, _, rfl, .put hn (hf n), by omega, fun d _ => by unfold slow; omega, fun C c' => ⟨c'.put i (C.final n (c' i n hn)), fun d _ => ?_⟩⟩
        rw [bound, if_pos (by omega)]
        exact Nat.le_refl _
      · rw [if_neg c, if_pos hlf, hi, leftOf_eq, rightOf_eq]
        have hcen : n.center = (a + b) / 2 := by rw [RNode.center, hs, he]
        obtain ⟨l, hl', -⟩ := hl.root
        obtain ⟨r, hr', -⟩ := hr.root
        rw [rd_some hl', rd_some hr']
        simp only [Res.bind_ok]
        generalize eh : (if X.has n.lazy = true then put (put (put h i (X.propagate n l r).1) (2 * i + 1)
          (X.propagate n l r).2.1) (2 * i + 2) (X.propagate n l r).2.2 else h) = hh1
        have sb : SameBoxes h hh1 := by
          rw [← eh]
          split
          · obtain ⟨k1, k2, k3⟩ := K.propagate n l r
            have g1 := SameBoxes.put hn k1
            have q1 : (put h i (X.propagate n l r).1)[2 * i + 1]? = some l := by
              simp only [put, List.getElem?_set, if_neg (show ¬ i = 2 * i + 1 by omega)]; exact hl'
            have g2 := SameBoxes.put q1 k2
            have q2 : (put (put h i (X.propagate n l r).1) (2 * i + 1) (X.propagate n l r).2.1)[2 * i + 2]? = some r := by
              simp only [put, List.getElem?_set, if_neg (show ¬ i = 2 * i + 2 by omega),
                if_neg (show ¬ 2 * i + 1 = 2 * i + 2 by omega)]; exact hr'
            exact (g1.trans g2).trans (SameBoxes.put q2 k3)
          · exact .refl h
        have calm1 : Calming X stp f → Calm stp h → Calm stp hh1 := by
          intro C cc
          rw [← eh]
          split
          · next hh =>
            obtain ⟨k1, k2, k3⟩ := C.propagate n l r (cc _ _ hn) (cc _ _ hl') (cc _ _ hr') hh
            exact ((cc.put i k1).put _ k2).put _ k3
          · exact cc
        have nostop : Calm stp h → ¬ (s = a ∧ e = b) := by
          intro cc hse
          exact c ⟨⟨by omega, by omega⟩, .inr (cc i n hn)⟩
        have hl1 := hl.same sb
        have hr1 := hr.same sb
        have fin : ∀ (h3 : List (RNode V U)) (m : Nat) (v : V), SameBoxes h h3 →
            ∃ v' h', (do
              let n ← rd h3 i
              let l ← rd h3 (2 * i + 1)
              let r ← rd h3 (2 * i + 2)
              Res.ok (m + 1, v, put h3 i { n with value := X.join l.value r.value })) = .ok (m + 1, v', h') ∧ SameBoxes h h' ∧
              (Calming X stp f → Calm stp h3 → Calm stp h') := by
          intro h3 m v k
          obtain ⟨n3, g1, -⟩ := k.2 i n hn
          obtain ⟨l3, g2, -⟩ := k.2 _ l hl'
          obtain ⟨r3, g3, -⟩ := k.2 _ r hr'
          rw [rd_some g1, rd_some g2, rd_some g3]
          exact ⟨_, _, rfl, k.trans (.put g1 ⟨rfl, rfl, rfl⟩), fun C cc => cc.put i (C.value n3 _ (cc _ _ g1))⟩
        have half : ∀ d, b - a < 2 ^ d → ∃ d', d = d' + 1 ∧ (a + b) / 2 - a < 2 ^ d' ∧ b - ((a + b) / 2 + 1) < 2 ^ d' := by
          intro d hd
          cases d with
          | zero => omega
          | succ d => exact ⟨d, rfl, by rw [Nat.pow_succ] at hd; omega, by rw [Nat.pow_succ] at hd; omega⟩
        rw [hcen]
        by_cases c1 : s ≤ (a + b) / 2 ∧ e > (a + b) / 2
        · rw [if_pos c1]
          obtain ⟨m2, v2, h2', w1, w2, w3, w5, w4⟩ := ih hl1 h1 c1.1 (Nat.le_refl _) (by omega)
          obtain ⟨m3, v3, h3', y1, y2, y3, y5, y4⟩ := ih (hr1.same w2) (Nat.le_refl _) (show _ ≤ e by omega) h3 (by omega)
          rw [w1]; simp only [Res.bind_ok]
          rw [y1]; simp only [Res.bind_ok]
          obtain ⟨v', h', z1, z2, z3⟩ := fin h3' (m2 + m3) (X.join v2 v3) ((sb.trans w2).trans y2)
          refine ⟨m2 + m3 + 1, v', h', z1, z2, by omega, fun d hd => ?_, fun C cc => ?_⟩
          · obtain ⟨d', rfl, k1, k2⟩ := half d hd
            have u1 := w5 d' k1
            have u2 := y5 d' k2
            unfold slow at u1 u2 ⊢
            by_cases ca : s = a
            · rw [if_pos ⟨ca, rfl⟩] at u1
              by_cases cb : e = b
              · rw [if_pos ⟨rfl, cb⟩] at u2
                omega
              · rw [if_neg (by omega), if_pos (.inl rfl)] at u2
                rw [if_neg (by omega), if_pos (.inl ca)]
                omega
            · rw [if_neg (by omega), if_pos (.inr rfl)] at u1
              by_cases cb : e = b
              · rw [if_pos ⟨rfl, cb⟩] at u2
                rw [if_neg (by omega), if_pos (.inr cb)]
                omega
              · rw [if_neg (by omega), if_pos (.inl rfl)] at u2
                rw [if_neg (by omega), if_neg (by omega)]
                omega
          obtain ⟨p1, p2⟩ := w4 C (calm1 C cc)
          obtain ⟨q1, q2⟩ := y4 C p1
          refine ⟨z3 C q1, fun d hd => ?_⟩
          obtain ⟨d', rfl, k1, k2⟩ := half d hd
          have u1 := p2 d' k1
          have u2 := q2 d' k2
          have u3 := nostop cc
          unfold bound at u1 u2 ⊢
          by_cases ca : s = a
          · rw [if_pos ⟨ca, rfl⟩] at u1
            rw [if_neg (by omega), if_pos (.inl ca)]
            by_cases cb : e = b
            · omega
            · rw [if_neg (by omega), if_pos (.inl rfl)] at u2
              omega
          · rw [if_neg (by omega), if_pos (.inr rfl)] at u1
            rw [if_neg (by omega)]
            by_cases cb : e = b
            · rw [if_pos ⟨rfl, cb⟩] at u2
              rw [if_pos (.inr cb)]
              omega
            · rw [if_neg (by omega), if_pos (.inl rfl)] at u2
              rw [if_neg (by omega)]
              omega
        · rw [if_neg c1]
          by_cases c2 : s ≤ (a + b) / 2
          · rw [if_pos c2]
            obtain ⟨m2, v2, h2', w1, w2, w3, w5, w4⟩ := ih hl1 h1 h2 (show e ≤ _ by omega) (by omega)
            rw [w1]; simp only [Res.bind_ok]
            obtain ⟨v', h', z1, z2, z3⟩ := fin h2' m2 v2 (sb.trans w2)
            refine ⟨m2 + 1, v', h', z1, z2, by omega, fun d hd => ?_, fun C cc => ?_⟩
            · obtain ⟨d', rfl, k1, k2⟩ := half d hd
              have u1 := w5 d' k1
              unfold slow at u1 ⊢
              by_cases ca : s = a
              · rw [if_neg (by omega), if_pos (.inl ca)]
                split at u1
                · omega
                · rw [if_pos (.inl ca)] at u1; omega
              · rw [if_neg (by omega), if_neg (by omega)]
                rw [if_neg (by omega)] at u1
                split at u1
                · omega
                · omega
            obtain ⟨p1, p2⟩ := w4 C (calm1 C cc)
            refine ⟨z3 C p1, fun d hd => ?_⟩
            obtain ⟨d', rfl, k1, k2⟩ := half d hd
            have u1 := p2 d' k1
            unfold bound at u1 ⊢
            by_cases ca : s = a
            · rw [if_neg (by omega), if_pos (.inl ca)]
              split at u1
              · omega
              · rw [if_pos (.inl ca)] at u1; omega
            · rw [if_neg (by omega), if_neg (by omega)]
              rw [if_neg (by omega)] at u1
              split at u1
              · omega
              · omega
          · rw [if_neg c2, if_pos (by omega)]
            obtain ⟨m2, v2, h2', w1, w2, w3, w5, w4⟩ := ih hr1 (show _ ≤ s by omega) h2 h3 (by omega)
            rw [w1]; simp only [Res.bind_ok]
            obtain ⟨v', h', z1, z2, z3⟩ := fin h2' m2 v2 (sb.trans w2)
            refine ⟨m2 + 1, v', h', z1, z2, by omega, fun d hd => ?_, fun C cc => ?_⟩
            · obtain ⟨d', rfl, k1, k2⟩ := half d hd
              have u1 := w5 d' k2
              unfold slow at u1 ⊢
              by_cases cb : e = b
              · rw [if_neg (by omega), if_pos (.inr cb)]
                split at u1
                · omega
                · rw [if_pos (.inr cb)] at u1; omega
              · rw [if_neg (by omega), if_neg (by omega)]
                rw [if_neg (by omega)] at u1
                split at u1
                · omega
                · omega
            obtain ⟨p1, p2⟩ := w4 C (calm1 C cc)
            refine ⟨z3 C p1, fun d hd => ?_⟩
            obtain ⟨d', rfl, k1, k2⟩ := half d hd
            have u1 := p2 d' k2
            unfold bound at u1 ⊢
            by_cases cb : e = b
            · rw [if_neg (by omega), if_pos (.inr cb)]
              split at u1
              · omega
              · rw [if_pos (.inr cb)] at u1; omega
            · rw [if_neg (by omega), if_neg (by omega)]
              rw [if_neg (by omega)] at u1
              split at u1
              · omega
              · omega

theorem lastPos_eq {t : SegT V U} (r : TShape t) : lastPos t = t.size - 1 := by
  have h1 := r.pos
  have h2 := r.bound
  have h3 : 0 < W := by decide
  unfold lastPos
  have : t.size + W - 1 = (t.size - 1) + W := by omega
  rw [this, Nat.add_mod_right, Nat.mod_eq_of_lt (by omega)]

/-- The number of nodes visited by a call on `n` elements: at most all of them, and at most `2 (e - s) + 1 + 2 log2 n`. -/
def Bounded (n a b m : Nat) : Prop :=
  m ≤ 2 * n - 1 ∧ ∀ d, n ≤ 2 ^ d → m ≤ 2 * (hi n a b - lo n a b) + 1 + 2 * d

/-- The number of nodes visited by a call on `n` elements is logarithmic. -/
def Logarithmic (n m : Nat) : Prop := ∀ d, n ≤ 2 ^ d → m ≤ max (d + 1) (4 * d - 3)

theorem slow_le (d a b s e : Nat) : slow d a b s e ≤ 2 * (e - s) + 1 + 2 * d := by
  unfold slow; split
  · omega
  · split <;> omega

theorem bound_le (d a b s e : Nat) (h1 : a ≤ s) (h2 : s ≤ e) (h3 : e ≤ b) (h : b - a < 2 ^ d) : bound d a b s e ≤ max (d + 1) (4 * d - 3) := by
  unfold bound; split
  · omega
  · cases d with
    | zero => omega
    | succ d => split <;> omega

theorem queryC_cost (K : Keeps X) {t : SegT V U} (r : TShape t) (a b : Nat) :
    ∃ m v t', queryC X t a b = .ok (m, v, t') ∧ query X t a b = .ok (v, t') ∧ Bounded t.size a b m ∧
      (Calm (fun n => !X.has n.lazy) t.heap → Calm (fun n => !X.has n.lazy) t'.heap ∧ Logarithmic t.size m) := by
  have h1 := r.pos
  have h2 := r.cap
  have hl := lastPos_eq r
  have same := (C170_same (X := X) t a b X.none).1
  obtain ⟨m, v, h', w1, w2, w3, w4, w5⟩ := walkC_shape K (stp := fun n => !X.has n.lazy) (f := fun n => n) (fun _ => ⟨rfl, rfl, rfl⟩)
    t.heap.length r.shape (s := min (min a b) (t.size - 1)) (e := min (max a b) (t.size - 1)) (Nat.zero_le _)
    (by omega) (by omega) (by omega)
  have e : queryC X t a b = .ok (m, v, { t with heap := h' }) := by
    unfold queryC
    rw [if_neg (by simp [r.built]), hl]
    simp only [Heap.head, rdAt_lt (show 0 < t.heap.length by omega), Res.bind_ok]
    rw [w1]; rfl
  refine ⟨m, v, _, e, by rw [← same, e]; rfl, ⟨by omega, fun d hd => ?_⟩, fun c => ?_⟩
  · exact Nat.le_trans (w4 d (by omega)) (slow_le ..)
  · obtain ⟨q1, q2⟩ := w5 ⟨fun n v h => h, fun n h => h, fun n l r h _ _ h' => by simp [h'] at h⟩ c
    exact ⟨q1, fun d hd => Nat.le_trans (q2 d (by omega)) (bound_le _ _ _ _ _ (by omega) (by omega) (by omega) (by omega))⟩

theorem queryUpdateC_cost (K : Keeps X) {t : SegT V U} (r : TShape t) (a b : Nat) (u : U) :
    ∃ m v t', queryUpdateC X t a b u = .ok (m, v, t') ∧ queryUpdate X t a b u = .ok (v, t') ∧ Bounded t.size a b m ∧
      ((∀ n, X.criteria n = true) → Logarithmic t.size m) := by
  have h1 := r.pos
  have h2 := r.cap
  have hl := lastPos_eq r
  have same := (C170_same (X := X) t a b u).2
  obtain ⟨m, v, h', w1, w2, w3, w4, w5⟩ := walkC_shape K (stp := fun n => !X.has n.lazy || X.criteria n)
    (f := fun n => if X.has u then X.apply n u else n) (fun n => by split; exact K.apply n u; exact ⟨rfl, rfl, rfl⟩)
    t.heap.length r.shape (s := min (min a b) (t.size - 1)) (e := min (max a b) (t.size - 1)) (Nat.zero_le _)
    (by omega) (by omega) (by omega)
  have e : queryUpdateC X t a b u = .ok (m, v, { t with heap := h' }) := by
    unfold queryUpdateC
    rw [if_neg (by simp [r.built]), hl]
    simp only [Heap.head, rdAt_lt (show 0 < t.heap.length by omega), Res.bind_ok]
    rw [w1]; rfl
  refine ⟨m, v, _, e, by rw [← same, e]; rfl, ⟨by omega, fun d hd => ?_⟩, fun c => ?_⟩
  · exact Nat.le_trans (w4 d (by omega)) (slow_le ..)
  · have c' : ∀ n : RNode V U, (!X.has n.lazy || X.criteria n) = true := fun n => by simp [c n]
    obtain ⟨q1, q2⟩ := w5 ⟨fun n v _ => c' _, fun n _ => c' _, fun n l r _ _ _ _ => ⟨c' _, c' _, c' _⟩⟩ fun j n _ => c' n
    exact fun d hd => Nat.le_trans (q2 d (by omega)) (bound_le _ _ _ _ _ (by omega) (by omega) (by omega) (by omega))

/-- C170: calls on a segment tree of `n ≥ 1` elements visit `O(log n)` nodes, whatever was called before (at most `4 log2 n - 3`). -/
def C170_statement : Prop := ∀ {T V U : Type} (X : Transform T V U) (P : U → Prop) (act : U → Nat → Nat → V → V),
  Lawful X P act → Keeps X → (∀ n, X.criteria n = true) → ∀ (need : Nat → Nat), Roomy need →
  ∀ (input : List T) (number : Nat), input.length ≤ W → input.take number ≠ [] →
  ∀ ops : List (Op T U), (∀ op ∈ ops, OpOk P op) → ∀ t vs, run X need SegT.new (.rebuild input number :: ops) = .ok (t, vs) →
  ∀ a b u, P u →
    (∀ m r, queryC X t a b = .ok (m, r) → Logarithmic t.size m) ∧ (∀ m r, queryUpdateC X t a b u = .ok (m, r) → Logarithmic t.size m)

/-- C170 (part): after every history of calls, `query_update` visits `O(log n)` nodes if `criteria` accepts every node (the default), and
so does `query` if updates are never pending (as for the library's own transform); in any case a call visits at most `2 n - 1` nodes and
at most `2 log2 n` more than twice the length of its interval.
Missing: queries below pending updates (`C170_counterexample`). -/
theorem C170_bounds_partial (X : Transform T V U) (K : Keeps X) (need : Nat → Nat) (hneed : Roomy need)
    (input : List T) (number : Nat) (hb : input.length ≤ W) (hne : input.take number ≠ [])
    (ops : List (Op T U)) (hops : ∀ op ∈ ops, OpOk (fun _ => True) op) :
    ∃ t vs, run X need SegT.new (.rebuild input number :: ops) = .ok (t, vs) ∧ ∀ a b u,
      (∃ m v t', queryC X t a b = .ok (m, v, t') ∧ query X t a b = .ok (v, t') ∧ Bounded t.size a b m ∧
        ((∀ u, X.has u = false) → Logarithmic t.size m)) ∧
      (∃ m v t', queryUpdateC X t a b u = .ok (m, v, t') ∧ queryUpdate X t a b u = .ok (v, t') ∧ Bounded t.size a b m ∧
        ((∀ n, X.criteria n = true) → Logarithmic t.size m)) := by
  obtain ⟨t, e, r, s, c⟩ := build_shape (X := X) hneed SegT.new input number hb hne
  obtain ⟨t', vs, e2, r'⟩ := run_shape K hneed ops r hops
  refine ⟨t', none :: vs, by simp only [run, e, Res.bind_ok, e2], fun a b u => ⟨?_, queryUpdateC_cost K r' a b u⟩⟩
  obtain ⟨m, v, t'', h1, h2, h3, h4⟩ := queryC_cost K r' a b
  exact ⟨m, v, t'', h1, h2, h3, fun hh => (h4 fun j n _ => by simp [hh]).2⟩

theorem buildNode_calm (hnone : X.has X.none = false) (input : List T) (fuel : Nat) : ∀ (i : Nat) (h h' : List (RNode V U)),
    Calm (fun n => !X.has n.lazy) h → buildNode X input fuel i h = .ok h' → Calm (fun n => !X.has n.lazy) h' := by
  induction fuel with
  | zero => intro i h h' _ e; simp [buildNode] at e
  | succ fuel ih =>
    intro i h h' c e
    unfold buildNode at e
    rw [Res.bind_eq_ok] at e
    obtain ⟨n, en, e⟩ := e
    have look : ∀ (g : List (RNode V U)) j n, rd g j = .ok n → Calm (fun n => !X.has n.lazy) g → (!X.has n.lazy) = true := by
      intro g j n hg cg
      refine cg j n ?_
      unfold rd at hg
      split at hg
      · next h1 => injection hg with hg; rw [h1, hg]
      · cases hg
    by_cases hlt : n.stop > n.start
    · rw [if_pos hlt] at e
      simp only [Res.bind_eq_ok] at e
      obtain ⟨l, el, r, er, h2, e2, h3, e3, n4, e4, l4, e5, r4, e6, e⟩ := e
      injection e with e
      subst e
      have c1 := (c.put (leftOf n.index) (n := { l with start := n.start, stop := n.center, index := leftOf n.index, lazy := X.none })
        (by simp [hnone])).put (rightOf n.index)
        (n := { r with start := n.center + 1, stop := n.stop, index := rightOf n.index, lazy := X.none }) (by simp [hnone])
      have c3 := ih _ _ _ (ih _ _ _ c1 e2) e3
      exact c3.put i (look _ _ n4 e4 c3)
    · rw [if_neg hlt] at e
      simp only [Res.bind_eq_ok] at e
      obtain ⟨x, ex, e⟩ := e
      injection e with e
      subst e
      exact c.put i (look _ _ n en c)

/-- C170: after a tree was built, queries visit `O(log n)` nodes until the first update. -/
theorem C170_fresh (X : Transform T V U) (K : Keeps X) (hnone : X.has X.none = false) (need : Nat → Nat) (hneed : Roomy need)
    (input : List T) (number : Nat) (hb : input.length ≤ W) (hne : input.take number ≠ []) (qs : List (Nat × Nat)) :
    ∃ t vs, run X need SegT.new (.rebuild input number :: qs.map fun q => .query q.1 q.2) = .ok (t, vs) ∧ ∀ a b,
      ∃ m v t', queryC X t a b = .ok (m, v, t') ∧ Logarithmic t.size m := by
  obtain ⟨t, e, r, s, c⟩ := build_shape (X := X) hneed SegT.new input number hb hne
  have ct : Calm (fun n => !X.has n.lazy) t.heap := by
    have e' := e
    unfold build at e'
    generalize (if number < input.length then number else input.length) = sz at e'
    by_cases hz : sz ≠ 0
    · simp only [if_pos hz, Res.bind_eq_ok] at e'
      obtain ⟨h1, e1, h2, e2, e'⟩ := e'
      injection e' with e'
      subst e'
      refine buildNode_calm hnone _ _ _ _ _ ?_ e2
      unfold wrAt at e1
      generalize hg : (if SegT.new.heap.length < need sz then resize (dfltNode X) (SegT.new : SegT V U).heap (need sz)
        else (SegT.new : SegT V U).heap) = g at e1
      by_cases h0 : 0 < g.length
      · rw [if_pos h0] at e1
        injection e1 with e1
        rw [← e1]
        refine Calm.put (i := 0) ?_ (by simp [hnone])
        intro j n hn
        have : n = dfltNode X := by
          have hn := List.mem_of_getElem? hn
          rw [← hg] at hn
          split at hn
          · simp only [resize, SegT.new] at hn
            simp at hn
            exact hn.2
          · simp [SegT.new] at hn
        subst this
        simp [dfltNode, hnone]
      · rw [if_neg h0] at e1; cases e1
    · simp only [if_neg hz] at e'
      injection e' with e'
      rw [← e']
      intro j n hn
      simp [SegT.new] at hn
  have key : ∀ (qs : List (Nat × Nat)) (t : SegT V U), TShape t → Calm (fun n => !X.has n.lazy) t.heap →
      ∃ t' vs, run X need t (qs.map fun q => .query q.1 q.2) = .ok (t', vs) ∧ TShape t' ∧ Calm (fun n => !X.has n.lazy) t'.heap := by
    intro qs
    induction qs with
    | nil => intro t r c; exact ⟨t, [], rfl, r, c⟩
    | cons q qs ih =>
      intro t r c
      obtain ⟨m, v, t1, h1, h2, h3, h4⟩ := queryC_cost K r q.1 q.2
      obtain ⟨⟨v', t1', g1, g2, -⟩, -⟩ := tshape_walk K r q.1 q.2 X.none
      rw [h2] at g1; injection g1 with g1; injection g1 with _ g1; subst g1
      obtain ⟨t', vs, k1, k2, k3⟩ := ih t1 g2 (h4 c).1
      exact ⟨t', some v :: vs, by simp only [List.map_cons, run, h2, Res.bind_ok, k1], k2, k3⟩
  obtain ⟨t', vs, k1, k2, k3⟩ := key qs t r ct
  refine ⟨t', none :: vs, by simp only [run, e, Res.bind_ok, k1], fun a b => ?_⟩
  obtain ⟨m, v, t'', h1, h2, h3, h4⟩ := queryC_cost K k2 a b
  exact ⟨m, v, t'', h1, (h4 k3).2⟩

/-! ### Queries below pending updates -/

theorem hot (fuel : Nat) : ∀ {P : Int → Prop} {act : Int → Nat → Nat → Int → Int} {h0 h : List (RNode Int Int)} {i a b : Nat} {vs : List Int}
    {n : RNode Int Int}, (∀ w, P w → w = 0) →
    Rep addSum P act h0 i a b vs → h.length = h0.length → (∀ j, Under i j → j ≠ i → h[j]? = h0[j]?) → h[i]? = some n → n.start = a → n.stop = b →
    n.index = i → (a < b → n.lazy ≠ 0) → b - a < fuel →
    ∃ v h', walkC addSum (fun n => !addSum.has n.lazy) (fun n => n) fuel a b i h = .ok (2 * (b - a) + 1, v, h') ∧
      h'.length = h.length ∧ ∀ j, ¬ Under i j → h'[j]? = h[j]? := by
  induction fuel with
  | zero => intros; omega
  | succ fuel ih =>
    intro P act h0 h i a b vs n hP rep hlen hund hn hs he hi hz hfu
    unfold walkC
    rw [rd_some hn]
    simp only [Res.bind_ok]
    cases rep with
    | leaf =>
      rw [if_pos ⟨⟨hs, he.symm⟩, .inl (by simp [RNode.leaf, hs, he])⟩]
      refine ⟨_, _, by rw [Nat.sub_self], by simp [put], fun j hj => ?_⟩
      rw [put_frame j hj]
    | node hab hn0 hs0 he0 hi0 hl hr hp hvs hv =>
      have hlf : n.leaf = false := by simp [RNode.leaf]; omega
      have hhas : addSum.has n.lazy = true := by simp [addSum, hz hab]
      rw [if_neg (by simp [hlf, hhas]), if_pos hlf, hi, leftOf_eq, rightOf_eq]
      have hcen : n.center = (a + b) / 2 := by rw [RNode.center, hs, he]
      have root : ∀ {i a b vs} {h : List (RNode Int Int)}, Rep addSum P act h i a b vs → ∃ n, h[i]? = some n ∧ n.start = a ∧ n.stop = b ∧ n.index = i ∧
          (a < b → n.lazy = 0) := by
        intro i a b vs h r
        cases r with
        | leaf hn hs he hi => exact ⟨_, hn, hs, he, hi, fun h => by omega⟩
        | node hab hn hs he hi hl hr hp => exact ⟨_, hn, hs, he, hi, fun _ => hP _ hp⟩
      obtain ⟨l, hl', l1, l2, l3, l4⟩ := root hl
      obtain ⟨r, hr', r1, r2, r3, r4⟩ := root hr
      have ul : Under i (2 * i + 1) := under_left (under_self _)
      have ur : Under i (2 * i + 2) := under_right (under_self _)
      have hlh : h[2 * i + 1]? = some l := by rw [hund _ ul (by omega)]; exact hl'
      have hrh : h[2 * i + 2]? = some r := by rw [hund _ ur (by omega)]; exact hr'
      have b1 := (List.getElem?_eq_some_iff.1 hn).1
      have b2 := (List.getElem?_eq_some_iff.1 hlh).1
      have b3 := (List.getElem?_eq_some_iff.1 hrh).1
      rw [rd_some hlh, rd_some hrh]
      simp only [Res.bind_ok, if_pos hhas]
      generalize eh : put (put (put h i (addSum.propagate n l r).1) (2 * i + 1)
          (addSum.propagate n l r).2.1) (2 * i + 2) (addSum.propagate n l r).2.2 = h1
      have g0 : h1.length = h.length := by rw [← eh]; simp [put]
      have gi : h1[i]? = some (addSum.propagate n l r).1 := by
        rw [← eh]; simp only [put, List.getElem?_set]
        rw [if_neg (by omega), if_neg (by omega), if_pos trivial, if_pos (by omega)]
      have gl : h1[2 * i + 1]? = some (addSum.propagate n l r).2.1 := by
        rw [← eh]; simp only [put, List.getElem?_set, List.length_set]
        rw [if_neg (by omega), if_pos trivial, if_pos (by omega)]
      have gr : h1[2 * i + 2]? = some (addSum.propagate n l r).2.2 := by
        rw [← eh]; simp only [put, List.getElem?_set, List.length_set]
        rw [if_pos trivial, if_pos (by omega)]
      have go : ∀ j, j ≠ i → j ≠ 2 * i + 1 → j ≠ 2 * i + 2 → h1[j]? = h[j]? := by
        intro j j1 j2 j3
        rw [← eh]; simp only [put, List.getElem?_set]
        rw [if_neg (Ne.symm j3), if_neg (Ne.symm j2), if_neg (Ne.symm j1)]
      rw [hcen, if_pos (by omega)]
      have nz := hz hab
      obtain ⟨v2, h2, w1, w2, w3⟩ := ih hP hl (h := h1) (by omega) (fun j hj hne => by
          have := hj.le
          rw [go j (by omega) hne (fun e => by subst e; exact under_disjoint hj (under_self _))]
          exact hund j (under_left hj) (by omega)) gl l1 l2 l3
        (fun hh => by show l.lazy + n.lazy ≠ 0; rw [l4 hh]; omega) (by omega)
      have nl : ∀ j, Under (2 * i + 2) j → ¬ Under (2 * i + 1) j := fun j h1 h2 => under_disjoint h2 h1
      obtain ⟨v3, h3, y1, y2, y3⟩ := ih hP hr (h := h2) (by omega) (fun j hj hne => by
          have := hj.le
          rw [w3 j (nl j hj), go j (by omega) (by omega) hne]
          exact hund j (under_right hj) (by omega)) ((w3 _ (nl _ (under_self _))).trans gr) r1 r2 r3
        (fun hh => by show r.lazy + n.lazy ≠ 0; rw [r4 hh]; omega) (by omega)
      rw [w1]
      simp only [Res.bind_ok]
      rw [y1]
      simp only [Res.bind_ok]
      have some_ : ∀ j, j < h3.length → ∃ n, h3[j]? = some n := fun j hj => ⟨_, List.getElem?_eq_getElem hj⟩
      obtain ⟨n4, q1⟩ := some_ i (by omega)
      obtain ⟨l4, q2⟩ := some_ (2 * i + 1) (by omega)
      obtain ⟨r4, q3⟩ := some_ (2 * i + 2) (by omega)
      rw [rd_some q1, rd_some q2, rd_some q3]
      simp only [Res.bind_ok]
      refine ⟨_, _, by
        rw [show 2 * ((a + b) / 2 - a) + 1 + (2 * (b - ((a + b) / 2 + 1)) + 1) + 1 = 2 * (b - a) + 1 by omega],
        by simp [put]; omega, fun j hj => ?_⟩
      rw [put_frame j hj, y3 j fun h => hj (under_right h), w3 j fun h => hj (under_left h),
        go j (fun e => hj (e ▸ under_self _)) (fun e => hj (e ▸ ul)) (fun e => hj (e ▸ ur))]

/-- C170: after a tree of `n` elements was built and one update applied to all of them (which visits one node), a query of all of them
visits all `2 n - 1` nodes. -/
theorem C170_counterexample (need : Nat → Nat) (hneed : Roomy need) (input : List Int) (hb : input.length ≤ W) (hne : input ≠ [])
    (u : Int) (hu : u ≠ 0) :
    ∃ t1 v t2 v' t3, build addSum need SegT.new input input.length = .ok t1 ∧
      queryUpdateC addSum t1 0 (input.length - 1) u = .ok (1, v, t2) ∧ t2.size = input.length ∧
      queryC addSum t2 0 (input.length - 1) = .ok (2 * input.length - 1, v', t3) := by
  obtain ⟨t1, e, r, -⟩ := build_spec (X := addSum) (P := fun w => w = 0) (act := fun _ _ _ v => v) rfl rfl
    (fun x y z => Int.add_assoc x y z) hneed SegT.new input input.length hb (by rw [List.take_length]; exact hne)
  rw [List.take_length] at r
  generalize hxs : (input.mapIdx fun p x => addSum.build x p) = xs at r
  have hl : xs.length = input.length := by rw [← hxs]; simp
  obtain ⟨r1, r2, r3, r4, r5, r6⟩ := r
  rw [hl] at *
  have ts : TShape t1 := ⟨r1, by omega, by omega, by omega, by rw [r2]; exact shape_of_rep r6⟩
  have lp := lastPos_eq ts
  have h0 : 0 < t1.heap.length := by omega
  obtain ⟨n, hn, s1, s2, s3⟩ := (shape_of_rep r6).root
  have e1 : queryUpdateC addSum t1 0 (input.length - 1) u =
      .ok (1, (addSum.apply n u).value, { t1 with heap := put t1.heap 0 (addSum.apply n u) }) := by
    unfold queryUpdateC
    rw [if_neg (by simp [r1]), lp]
    simp only [Heap.head, rdAt_lt h0, Res.bind_ok, r2, Nat.zero_min, Nat.min_self, Nat.zero_max]
    obtain ⟨k, hk⟩ : ∃ k, t1.heap.length = k + 1 := ⟨t1.heap.length - 1, by omega⟩
    rw [hk]
    unfold walkC
    rw [rd_some hn]
    simp only [Res.bind_ok]
    rw [if_pos ⟨⟨s1, s2.symm⟩, .inr (by simp [addSum])⟩]
    have : addSum.has u = true := by simp [addSum, hu]
    simp only [this, if_true, Res.bind_ok]
  obtain ⟨v', h', w1, -, -⟩ := hot t1.heap.length (h0 := t1.heap) (h := put t1.heap 0 (addSum.apply n u)) (n := addSum.apply n u)
    (fun w h => h) r6 (by simp [put]) (fun j _ hj => by simp [put, Ne.symm hj]) (by simp [put, h0]) s1 s2 s3
    (fun hh => by
      have : ∀ {i a b vs}, Rep addSum (fun w => w = 0) (fun _ _ _ v => v) t1.heap i a b vs → a < b → ∀ n, t1.heap[i]? = some n → n.lazy = 0 := by
        intro i a b vs r hab n hn
        cases r with
        | leaf => omega
        | node hab hn0 hs he hi hl hr hp =>
          have hn1 := Option.some.inj (hn.symm.trans hn0)
          rw [hn1]; exact hp
      show n.lazy + u ≠ 0
      rw [this r6 hh n hn]; omega) (by omega)
  refine ⟨t1, _, _, v', { t1 with heap := h' }, e, e1, r2, ?_⟩
  unfold queryC
  rw [if_neg (by simp [r1])]
  have lp' : lastPos { t1 with heap := put t1.heap 0 (addSum.apply n u) } = input.length - 1 := by rw [← r2]; exact lp
  rw [lp']
  simp only [Heap.head, rdAt_lt (show 0 < (put t1.heap 0 (addSum.apply n u)).length by simp [put, h0]), Res.bind_ok, Nat.zero_min, Nat.min_self,
    Nat.zero_max]
  rw [show (put t1.heap 0 (addSum.apply n u)).length = t1.heap.length by simp [put], w1]
  simp only [Res.bind_ok]
  rw [show 2 * (input.length - 1 - 0) + 1 = 2 * input.length - 1 by omega]

/-- C170 does not hold: on 8 elements the query visits 15 nodes instead of 9. -/
theorem C170_not : ¬ C170_statement := by
  intro h
  obtain ⟨t1, v, t2, v', t3, e1, e2, e3, e4⟩ := C170_counterexample exactNeed roomy_exact [1, 2, 3, 4, 5, 6, 7, 8] (by decide) (by decide)
    5 (by decide)
  have same := (C170_same (X := addSum) t1 0 7 5).2
  have e2' : queryUpdate addSum t1 0 7 5 = .ok (v, t2) := by
    rw [← same]
    rw [show queryUpdateC addSum t1 0 7 5 = .ok (1, v, t2) from e2]; rfl
  have e1' : build addSum exactNeed SegT.new [1, 2, 3, 4, 5, 6, 7, 8] 8 = .ok t1 := e1
  have := (h addSum _ _ C57_addSum_lawful keeps_addSum (fun _ => rfl) exactNeed roomy_exact [1, 2, 3, 4, 5, 6, 7, 8] 8 (by decide) (by decide)
    [.update 0 7 5] (by intro op hop; simp at hop; subst hop; trivial) t2 [none, some v]
    (by simp only [run, e1', Res.bind_ok, e2']) 0 7 0 trivial).1 15 (v', t3) e4 3 (by rw [e3]; decide)
  omega

/-- A tree of 8 elements: a query and an update of `[1, 6]`, then the query below pending updates. -/
example :
    ((build addSum exactNeed SegT.new [1, 2, 3, 4, 5, 6, 7, 8] 8 >>= fun t => queryC addSum t 1 6).toOption.map fun r => (r.1, r.2.1)) =
      some (9, 27) ∧
    ((build addSum exactNeed SegT.new [1, 2, 3, 4, 5, 6, 7, 8] 8 >>= fun t => queryUpdateC addSum t 1 6 10).toOption.map fun r =>
      (r.1, r.2.1)) = some (9, 87) ∧
    ((build addSum exactNeed SegT.new [1, 2, 3, 4, 5, 6, 7, 8] 8 >>= fun t => queryUpdateC addSum t 0 7 10 >>= fun r =>
      queryC addSum r.2.2 0 7).toOption.map fun r => (r.1, r.2.1)) = some (15, 116) := by
  decide +kernel

end Verif.Seg
