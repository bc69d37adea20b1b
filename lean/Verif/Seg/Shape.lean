import Verif.Seg.Run

/-! The interval structure of the heap alone: no law on values is needed for memory safety and termination. -/

namespace Verif.Seg
open Spec Verif.Heap
set_option linter.unusedSectionVars false
variable {T V U : Type} {X : Transform T V U}

/-- Same interval and index. -/
def SameBox (n n' : RNode V U) : Prop := n'.start = n.start ∧ n'.stop = n.stop ∧ n'.index = n.index

/-- `apply` and `propagate` keep the interval and index of the nodes they are given. -/
structure Keeps (X : Transform T V U) : Prop where
  apply : ∀ n u, SameBox n (X.apply n u)
  propagate : ∀ n l r, SameBox n (X.propagate n l r).1 ∧ SameBox l (X.propagate n l r).2.1 ∧
    SameBox r (X.propagate n l r).2.2

inductive Shape (h : List (RNode V U)) : Nat → Nat → Nat → Prop
  | leaf {i a : Nat} {n : RNode V U} (hn : h[i]? = some n) (hs : n.start = a) (he : n.stop = a) (hi : n.index = i) :
    Shape h i a a
  | node {i a b : Nat} {n : RNode V U} (hab : a < b) (hn : h[i]? = some n) (hs : n.start = a)
    (he : n.stop = b) (hi : n.index = i) (hl : Shape h (2 * i + 1) a ((a + b) / 2))
    (hr : Shape h (2 * i + 2) ((a + b) / 2 + 1) b) : Shape h i a b

theorem Shape.root {h : List (RNode V U)} {i a b} (r : Shape h i a b) :
    ∃ n, h[i]? = some n ∧ n.start = a ∧ n.stop = b ∧ n.index = i := by
  cases r with
  | leaf hn hs he hi => exact ⟨_, hn, hs, he, hi⟩
  | node hab hn hs he hi => exact ⟨_, hn, hs, he, hi⟩

/-- A shape survives changes that keep every box of its subtree. -/
theorem Shape.frame {h h' : List (RNode V U)} {i a b} (r : Shape h i a b)
    (e : ∀ j n, Under i j → h[j]? = some n → ∃ n', h'[j]? = some n' ∧ SameBox n n') : Shape h' i a b := by
  induction r with
  | leaf hn hs he hi =>
    obtain ⟨n', e1, e2, e3, e4⟩ := e _ _ (under_self _) hn
    exact .leaf e1 (by omega) (by omega) (by omega)
  | node hab hn hs he hi hl hr ihl ihr =>
    obtain ⟨n', e1, e2, e3, e4⟩ := e _ _ (under_self _) hn
    exact .node hab e1 (by omega) (by omega) (by omega) (ihl fun j n hj => e j n (under_left hj))
      (ihr fun j n hj => e j n (under_right hj))

/-- Every cell keeps its box. -/
def SameBoxes (h h' : List (RNode V U)) : Prop :=
  h'.length = h.length ∧ ∀ (j : Nat) (n : RNode V U), h[j]? = some n → ∃ n', h'[j]? = some n' ∧ SameBox n n'

theorem SameBoxes.refl (h : List (RNode V U)) : SameBoxes h h := ⟨rfl, fun _ n hn => ⟨n, hn, rfl, rfl, rfl⟩⟩

theorem SameBoxes.trans {h h' h'' : List (RNode V U)} (a : SameBoxes h h') (b : SameBoxes h' h'') : SameBoxes h h'' := by
  refine ⟨b.1.trans a.1, fun j n hn => ?_⟩
  obtain ⟨n', e1, e2, e3, e4⟩ := a.2 j n hn
  obtain ⟨n'', f1, f2, f3, f4⟩ := b.2 j n' e1
  exact ⟨n'', f1, f2.trans e2, f3.trans e3, f4.trans e4⟩

theorem SameBoxes.put {h : List (RNode V U)} {i n n'} (hn : h[i]? = some n) (e : SameBox n n') :
    SameBoxes h (put h i n') := by
  refine ⟨by simp [Seg.put], fun j m hm => ?_⟩
  have hlt := (List.getElem?_eq_some_iff.1 hn).1
  by_cases c : i = j
  · subst c
    rw [hn] at hm; injection hm with hm; subst hm
    exact ⟨n', by simp [Seg.put, hlt], e⟩
  · exact ⟨m, by simp only [Seg.put, List.getElem?_set, if_neg c]; exact hm, rfl, rfl, rfl⟩

theorem Shape.same {h h' : List (RNode V U)} {i a b} (r : Shape h i a b) (e : SameBoxes h h') : Shape h' i a b :=
  r.frame fun j n _ hn => e.2 j n hn

theorem walk_shape (K : Keeps X) {stp : RNode V U → Bool} {f : RNode V U → RNode V U} (hf : ∀ n, SameBox n (f n))
    (fuel : Nat) : ∀ {h : List (RNode V U)} {i a b s e : Nat},
    Shape h i a b → a ≤ s → s ≤ e → e ≤ b → b - a < fuel →
    ∃ v h', walk X stp f fuel s e i h = .ok (v, h') ∧ SameBoxes h h' := by
  induction fuel with
  | zero => intro h i a b s e _ _ _ _ hf; omega
  | succ fuel ih =>
    intro h i a b s e rep h1 h2 h3 hfu
    unfold walk
    cases rep with
    | leaf hn hs he hi =>
      rename_i n
      rw [rd_some hn]
      have hlf : n.leaf = true := by simp [RNode.leaf, hs, he]
      simp only [Res.bind_ok]
      rw [if_pos ⟨⟨by omega, by omega⟩, .inl hlf⟩]
      exact ⟨_, _, rfl, .put hn (hf n)⟩
    | node hab hn hs he hi hl hr =>
      rename_i n
      rw [rd_some hn]
      simp only [Res.bind_ok]
      have hlf : n.leaf = false := by simp [RNode.leaf]; omega
      by_cases c : (n.start = s ∧ e = n.stop) ∧ (n.leaf = true ∨ stp n = true)
      · rw [if_pos c]
        exact ⟨_, _, rfl, .put hn (hf n)⟩
      · rw [if_neg c, if_pos hlf, hi, leftOf_eq, rightOf_eq]
        have hcen : n.center = (a + b) / 2 := by rw [RNode.center, hs, he]
        obtain ⟨l, hl', -⟩ := hl.root
        obtain ⟨r, hr', -⟩ := hr.root
        rw [rd_some hl', rd_some hr']
        simp only [Res.bind_ok]
        generalize eh : (if X.has n.lazy = true then put (put (put h i (X.propagate n l r).1) (2 * i + 1)
          (X.propagate n l r).2.1) (2 * i + 2) (X.propagate n l r).2.2 else h) = hh1
        have sb : SameBoxes h hh1 := by
          rw [← eh]
          split
          · obtain ⟨k1, k2, k3⟩ := K.propagate n l r
            have g1 := SameBoxes.put hn k1
            have q1 : (put h i (X.propagate n l r).1)[2 * i + 1]? = some l := by
              simp only [put, List.getElem?_set, if_neg (show ¬ i = 2 * i + 1 by omega)]; exact hl'
            have g2 := SameBoxes.put q1 k2
            have q2 : (put (put h i (X.propagate n l r).1) (2 * i + 1) (X.propagate n l r).2.1)[2 * i + 2]? = some r := by
              simp only [put, List.getElem?_set, if_neg (show ¬ i = 2 * i + 2 by omega),
                if_neg (show ¬ 2 * i + 1 = 2 * i + 2 by omega)]; exact hr'
            exact (g1.trans g2).trans (SameBoxes.put q2 k3)
          · exact .refl h
        have hl1 := hl.same sb
        have hr1 := hr.same sb
        have fin : ∀ (h3 : List (RNode V U)) (v : V), SameBoxes h h3 →
            ∃ v' h', (do
              let n ← rd h3 i
              let l ← rd h3 (2 * i + 1)
              let r ← rd h3 (2 * i + 2)
              Res.ok (v, put h3 i { n with value := X.join l.value r.value })) = .ok (v', h') ∧ SameBoxes h h' := by
          intro h3 v k
          obtain ⟨n3, g1, -⟩ := k.2 i n hn
          obtain ⟨l3, g2, -⟩ := k.2 _ l hl'
          obtain ⟨r3, g3, -⟩ := k.2 _ r hr'
          rw [rd_some g1, rd_some g2, rd_some g3]
          exact ⟨_, _, rfl, k.trans (.put g1 ⟨rfl, rfl, rfl⟩)⟩
        rw [hcen]
        by_cases c1 : s ≤ (a + b) / 2 ∧ e > (a + b) / 2
        · rw [if_pos c1]
          obtain ⟨v2, h2', w1, w2⟩ := ih hl1 h1 c1.1 (Nat.le_refl _) (by omega)
          obtain ⟨v3, h3', y1, y2⟩ := ih (hr1.same w2) (Nat.le_refl _) (show _ ≤ e by omega) h3 (by omega)
          rw [w1]; simp only [Res.bind_ok]
          rw [y1]; simp only [Res.bind_ok]
          exact fin h3' _ ((sb.trans w2).trans y2)
        · rw [if_neg c1]
          by_cases c2 : s ≤ (a + b) / 2
          · rw [if_pos c2]
            obtain ⟨v2, h2', w1, w2⟩ := ih hl1 h1 h2 (show e ≤ _ by omega) (by omega)
            rw [w1]; simp only [Res.bind_ok]
            exact fin h2' _ (sb.trans w2)
          · rw [if_neg c2, if_pos (by omega)]
            obtain ⟨v2, h2', w1, w2⟩ := ih hr1 (show _ ≤ s by omega) h2 h3 (by omega)
            rw [w1]; simp only [Res.bind_ok]
            exact fin h2' _ (sb.trans w2)

/-- Forget the values: building does not look at them. -/
def erase (X : Transform T V U) : Transform T Unit U where
  join _ _ := ()
  build _ _ := ()
  has _ := false
  none := X.none
  dflt := ()
  criteria _ := true
  propagate n l r := (n, l, r)
  apply n _ := n

def eraseNode (n : RNode V U) : RNode Unit U := ⟨n.start, n.stop, n.index, (), n.lazy⟩

theorem rd_map {α β : Type} (g : α → β) (l : List α) (i : Nat) :
    rd (l.map g) i = (match rd l i with | .ok x => .ok (g x) | .exc e => .exc e | .ub => .ub) := by
  unfold rd
  simp only [List.getElem?_map]
  cases l[i]? <;> rfl

theorem put_map (h : List (RNode V U)) (i n) : (put h i n).map eraseNode = put (h.map eraseNode) i (eraseNode n) := by
  simp [put, List.map_set]

theorem buildNode_erase (input : List T) (fuel : Nat) : ∀ i h,
    buildNode (erase X) input fuel i (h.map eraseNode) =
      (match buildNode X input fuel i h with | .ok h' => .ok (h'.map eraseNode) | .exc e => .exc e | .ub => .ub) := by
  induction fuel with
  | zero => intros; rfl
  | succ fuel ih =>
    intro i h
    unfold buildNode
    rw [rd_map]
    cases rd h i with
    | exc e => rfl
    | ub => rfl
    | ok n =>
      simp only [Res.bind_ok]
      by_cases c : n.stop > n.start
      · rw [if_pos c, if_pos (show (eraseNode n).stop > (eraseNode n).start from c)]
        have ei : (eraseNode n).index = n.index := rfl
        rw [ei, rd_map, rd_map]
        cases rd h (leftOf n.index) with
        | exc e => rfl
        | ub => rfl
        | ok l =>
          simp only [Res.bind_ok]
          cases rd h (rightOf n.index) with
          | exc e => rfl
          | ub => rfl
          | ok r =>
            simp only [Res.bind_ok]
            have e1 : put (put (h.map eraseNode) (leftOf n.index)
                { eraseNode l with start := (eraseNode n).start, stop := (eraseNode n).center, index := leftOf n.index,
                                   lazy := (erase X).none }) (rightOf n.index)
                { eraseNode r with start := (eraseNode n).center + 1, stop := (eraseNode n).stop,
                                   index := rightOf n.index, lazy := (erase X).none } =
              (put (put h (leftOf n.index)
                { l with start := n.start, stop := n.center, index := leftOf n.index, lazy := X.none }) (rightOf n.index)
                { r with start := n.center + 1, stop := n.stop, index := rightOf n.index, lazy := X.none }).map eraseNode := by
              rw [put_map, put_map]; rfl
            rw [e1, ih]
            generalize buildNode X input fuel (leftOf n.index) _ = q
            cases q with
            | exc e => rfl
            | ub => rfl
            | ok h2 =>
              simp only [Res.bind_ok]
              rw [ih]
              generalize buildNode X input fuel (rightOf n.index) h2 = q
              cases q with
              | exc e => rfl
              | ub => rfl
              | ok h3 =>
                simp only [Res.bind_ok]
                rw [rd_map, rd_map, rd_map]
                cases rd h3 i with
                | exc e => rfl
                | ub => rfl
                | ok n3 =>
                  simp only [Res.bind_ok]
                  cases rd h3 (leftOf n.index) with
                  | exc e => rfl
                  | ub => rfl
                  | ok l3 =>
                    simp only [Res.bind_ok]
                    cases rd h3 (rightOf n.index) with
                    | exc e => rfl
                    | ub => rfl
                    | ok r3 => simp only [Res.bind_ok]; rw [put_map]; rfl
      · rw [if_neg c, if_neg (show ¬ (eraseNode n).stop > (eraseNode n).start from c)]
        have es : (eraseNode n).start = n.start := rfl
        rw [es]
        cases rd input n.start with
        | exc e => rfl
        | ub => rfl
        | ok x => simp only [Res.bind_ok]; rw [put_map]; rfl

theorem shape_of_erase {h : List (RNode V U)} {i a b : Nat} (r : Shape (h.map eraseNode) i a b) : Shape h i a b := by
  have key : ∀ (h' : List (RNode Unit U)) i a b, Shape h' i a b → h' = h.map eraseNode → Shape h i a b := by
    intro h' i a b r
    induction r with
    | leaf hn hs he hi =>
      intro e; subst e
      rw [List.getElem?_map, Option.map_eq_some_iff] at hn
      obtain ⟨n, h1, h2⟩ := hn
      subst h2
      exact .leaf h1 hs he hi
    | node hab hn hs he hi hl hr ihl ihr =>
      intro e
      have sl := ihl e
      have sr := ihr e
      subst e
      rw [List.getElem?_map, Option.map_eq_some_iff] at hn
      obtain ⟨n, h1, h2⟩ := hn
      subst h2
      exact .node hab h1 hs he hi sl sr
  exact key _ i a b r rfl

theorem shape_of_rep {Y : Transform T V U} {P : U → Prop} {act : U → Nat → Nat → V → V} {h : List (RNode V U)}
    {i a b vs} (r : Rep Y P act h i a b vs) : Shape h i a b := by
  induction r with
  | leaf hn hs he hi => exact .leaf hn hs he hi
  | node hab hn hs he hi hl hr hp hvs hv ihl ihr => exact .node hab hn hs he hi ihl ihr

/-- The whole tree has the interval structure of `n` elements. -/
structure TShape (t : SegT V U) : Prop where
  built : t.built = true
  pos : 0 < t.size
  bound : t.size ≤ W
  cap : t.size ≤ t.heap.length
  shape : Shape t.heap 0 0 (t.size - 1)

theorem build_shape {need : Nat → Nat} (hneed : Roomy need) (t : SegT V U) (input : List T) (number : Nat)
    (hb : input.length ≤ W) (hne : input.take number ≠ []) :
    ∃ t', build X need t input number = .ok t' ∧ TShape t' ∧ t'.size = min number input.length ∧
      t'.heap.length = max t.heap.length (need t'.size) := by
  obtain ⟨t1, b1, b2, b3⟩ := build_spec (X := erase X) (P := fun _ => True) (act := fun _ _ _ v => v) rfl trivial
    (fun _ _ _ => rfl) hneed (⟨t.size, t.built, t.heap.map eraseNode⟩ : SegT Unit U) input number hb hne
  have e : build (erase X) need (⟨t.size, t.built, t.heap.map eraseNode⟩ : SegT Unit U) input number =
      (match build X need t input number with
        | .ok t' => .ok ⟨t'.size, t'.built, t'.heap.map eraseNode⟩
        | .exc e => .exc e
        | .ub => .ub) := by
    unfold build
    simp only [List.length_map]
    generalize (if number < input.length then number else input.length) = n
    by_cases c : n ≠ 0
    · rw [if_pos c, if_pos c]
      have e1 : (if t.heap.length < need n then resize (dfltNode (erase X)) (t.heap.map eraseNode) (need n)
          else t.heap.map eraseNode) = (if t.heap.length < need n then resize (dfltNode X) t.heap (need n)
          else t.heap).map eraseNode := by
        split
        · simp [resize, List.map_append, List.map_take, List.map_replicate]; right; rfl
        · rfl
      rw [e1]
      generalize (if t.heap.length < need n then resize (dfltNode X) t.heap (need n) else t.heap) = h
      unfold wrAt
      simp only [List.length_map]
      split
      · simp only [Res.bind_ok, List.length_set, List.length_map]
        have e2 : (h.map eraseNode).set 0 ⟨0, n - 1, 0, (erase X).dflt, (erase X).none⟩ =
            (h.set 0 ⟨0, n - 1, 0, X.dflt, X.none⟩).map eraseNode := by rw [List.map_set]; rfl
        rw [e2, buildNode_erase]
        generalize buildNode X input h.length 0 _ = q
        cases q <;> rfl
      · rfl
    · rw [if_neg c, if_neg c]
  rw [e] at b1
  cases q : build X need t input number with
  | exc x => rw [q] at b1; cases b1
  | ub => rw [q] at b1; cases b1
  | ok t' =>
    rw [q] at b1
    injection b1 with b1
    subst b1
    have hs := b2.size
    simp only at hs
    have hc := b2.cap
    have hp := b2.pos
    have hbd := b2.bound
    simp only [List.length_map] at hc b3
    have hsz : t'.size = min number input.length := by rw [hs]; simp
    refine ⟨t', rfl, ⟨b2.built, by omega, by omega, by omega, ?_⟩, hsz, by rw [b3, hsz]⟩
    have := shape_of_erase (shape_of_rep b2.rep)
    rw [← hs] at this
    exact this

theorem tshape_walk (K : Keeps X) {t : SegT V U} (r : TShape t) (a b : Nat) (u : U) :
    (∃ v t', query X t a b = .ok (v, t') ∧ TShape t' ∧ t'.heap.length = t.heap.length ∧ t'.size = t.size) ∧
    (∃ v t', queryUpdate X t a b u = .ok (v, t') ∧ TShape t' ∧ t'.heap.length = t.heap.length ∧ t'.size = t.size) := by
  have h1 := r.pos
  have h2 := r.cap
  have hl : lastPos t = t.size - 1 := by
    have h2 := r.bound
    have h3 : 0 < W := by decide
    unfold lastPos
    have : t.size + W - 1 = (t.size - 1) + W := by omega
    rw [this, Nat.add_mod_right, Nat.mod_eq_of_lt (by omega)]
  constructor
  · unfold query
    rw [if_neg (by simp [r.built]), hl]
    simp only [Heap.head, rdAt_lt (show 0 < t.heap.length by omega), Res.bind_ok, rangeQuery_eq_walk]
    obtain ⟨v, h', w1, w2⟩ := walk_shape K (stp := fun n => !X.has n.lazy) (f := fun n => n) (fun _ => ⟨rfl, rfl, rfl⟩)
      t.heap.length r.shape (s := min (min a b) (t.size - 1)) (e := min (max a b) (t.size - 1)) (Nat.zero_le _)
      (by omega) (by omega) (by omega)
    rw [w1]
    exact ⟨_, _, rfl, ⟨r.built, h1, r.bound, by have := w2.1; show t.size ≤ h'.length; omega, r.shape.same w2⟩, w2.1, rfl⟩
  · unfold queryUpdate
    rw [if_neg (by simp [r.built]), hl]
    simp only [Heap.head, rdAt_lt (show 0 < t.heap.length by omega), Res.bind_ok, rangeUpdate_eq_walk]
    obtain ⟨v, h', w1, w2⟩ := walk_shape K (stp := fun n => !X.has n.lazy || X.criteria n)
      (f := fun n => if X.has u then X.apply n u else n)
      (fun n => by split; exact K.apply n u; exact ⟨rfl, rfl, rfl⟩)
      t.heap.length r.shape (s := min (min a b) (t.size - 1)) (e := min (max a b) (t.size - 1)) (Nat.zero_le _)
      (by omega) (by omega) (by omega)
    rw [w1]
    exact ⟨_, _, rfl, ⟨r.built, h1, r.bound, by have := w2.1; show t.size ≤ h'.length; omega, r.shape.same w2⟩, w2.1, rfl⟩

theorem run_shape (K : Keeps X) {need : Nat → Nat} (hneed : Roomy need) (ops : List (Op T U)) :
    ∀ {t : SegT V U}, TShape t → (∀ op ∈ ops, OpOk (fun _ => True) op) →
    ∃ t' vs, run X need t ops = .ok (t', vs) ∧ TShape t' := by
  induction ops with
  | nil => intro t r _; exact ⟨t, [], rfl, r⟩
  | cons op ops ih =>
    intro t r hops
    have hrest : ∀ op ∈ ops, OpOk (fun _ => True) op := fun op h => hops op (List.mem_cons_of_mem _ h)
    have hop := hops op List.mem_cons_self
    cases op with
    | query a b =>
      obtain ⟨v, t1, e1, r1, -⟩ := (tshape_walk K r a b X.none).1
      obtain ⟨t2, vs, e2, r2⟩ := ih r1 hrest
      exact ⟨t2, some v :: vs, by simp only [run, e1, Res.bind_ok, e2], r2⟩
    | update a b u =>
      obtain ⟨v, t1, e1, r1, -⟩ := (tshape_walk K r a b u).2
      obtain ⟨t2, vs, e2, r2⟩ := ih r1 hrest
      exact ⟨t2, some v :: vs, by simp only [run, e1, Res.bind_ok, e2], r2⟩
    | rebuild input number =>
      obtain ⟨t1, e1, r1, -⟩ := build_shape (X := X) hneed t input number hop.1 hop.2
      obtain ⟨t2, vs, e2, r2⟩ := ih r1 hrest
      exact ⟨t2, none :: vs, by simp only [run, e1, Res.bind_ok, e2], r2⟩

end Verif.Seg
