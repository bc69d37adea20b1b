import Verif.Mem.Calls
import Verif.Mem.Spec
import Verif.Avl.Refine

/-! The invariant of the memory in terms of paths and readings; histories of several trees. -/

namespace Verif.Mem
open Avl (Tree)
open Avl.Spec (inorder MSet)
open Spec
set_option linter.unusedSectionVars false
variable {α : Type}

def subAt : Tree α → List Bool → Tree α
  | t, [] => t
  | .nil, _ :: _ => .nil
  | .node _ _ _ _ l r, b :: path => subAt (if b then r else l) path

theorem follow_rep {s : St α} (path : List Bool) : ∀ {t : Tree α}, Rep s.mem t → follow s (ptr t) path = ptr (subAt t path) := by
  induction path with
  | nil => intro t _; cases t <;> rfl
  | cons b path ih =>
    intro t h
    cases t with
    | nil => rfl
    | node i p v hh l r =>
      simp only [ptr_node, follow, h.1, subAt]
      cases b with
      | true => exact ih h.2.2
      | false => exact ih h.2.1

theorem subAt_ids (path : List Bool) : ∀ {t : Tree α} {i : Nat}, ptr (subAt t path) = some i → i ∈ ids t := by
  induction path with
  | nil => intro t i h; cases t <;> simp_all [subAt, ids]
  | cons b path ih =>
    intro t i h
    cases t with
    | nil => simp [subAt] at h
    | node j p v hh l r =>
      cases b with
      | true => have := ih (t := r) h; simp [ids, this]
      | false => have := ih (t := l) h; simp [ids, this]

theorem ids_subAt {t : Tree α} {i : Nat} (h : i ∈ ids t) : ∃ path, ptr (subAt t path) = some i := by
  induction t with
  | nil => cases h
  | node j p v hh l r ihl ihr =>
    simp only [ids, List.mem_cons, List.mem_append] at h
    rcases h with rfl | h | h
    · exact ⟨[], rfl⟩
    · obtain ⟨path, hp⟩ := ihl h; exact ⟨false :: path, hp⟩
    · obtain ⟨path, hp⟩ := ihr h; exact ⟨true :: path, hp⟩

theorem subAt_inj (path : List Bool) : ∀ {t : Tree α} {path' : List Bool} {i : Nat}, (ids t).Nodup → ptr (subAt t path) = some i →
    ptr (subAt t path') = some i → path = path' := by
  induction path with
  | nil =>
    intro t path' i hn h1 h2
    cases t with
    | nil => simp [subAt] at h1
    | node j p v hh l r =>
      obtain ⟨n1, n2, -⟩ := nodup_node.1 hn
      simp only [subAt, ptr_node, Option.some.injEq] at h1
      subst h1
      cases path' with
      | nil => rfl
      | cons b path' =>
        cases b with
        | true => exact absurd (subAt_ids (t := r) path' h2) n2
        | false => exact absurd (subAt_ids (t := l) path' h2) n1
  | cons b path ih =>
    intro t path' i hn h1 h2
    cases t with
    | nil => simp [subAt] at h1
    | node j p v hh l r =>
      obtain ⟨n1, n2, n3, n4, n5⟩ := nodup_node.1 hn
      cases path' with
      | nil =>
        simp only [subAt, ptr_node, Option.some.injEq] at h2
        subst h2
        cases b with
        | true => exact absurd (subAt_ids (t := r) path h1) n2
        | false => exact absurd (subAt_ids (t := l) path h1) n1
      | cons b' path' =>
        cases b <;> cases b'
        · rw [ih n3 h1 h2]
        · exact absurd (subAt_ids (t := r) path' h2) (n5 _ (subAt_ids (t := l) path h1))
        · exact absurd (subAt_ids (t := r) path h1) (n5 _ (subAt_ids (t := l) path' h2))
        · rw [ih n4 h1 h2]

theorem reads_rep {s : St α} {t : Tree α} (h : Rep s.mem t) : Reads s (ptr t) (inorder t) := by
  induction t with
  | nil => exact .null
  | node i p v hh l r ihl ihr => exact .node h.1 (ihl h.2.1) (ihr h.2.2)

theorem reads_unique {s : St α} {p : Ptr} {xs ys : List α} (h : Reads s p xs) : Reads s p ys → xs = ys := by
  induction h generalizing ys with
  | null => intro h'; cases h'; rfl
  | node hi _ _ ih1 ih2 =>
    intro h'
    cases h' with
    | node hi' h3 h4 =>
      rw [hi] at hi'
      injection hi' with e
      subst e
      rw [ih1 h3, ih2 h4]

theorem Inv.inTree {s : St α} {T : Nat → Tree α} (h : Inv s T) {k i : Nat} : InTree s k i ↔ i ∈ ids (T k) := by
  unfold InTree
  rw [h.root k]
  constructor
  · rintro ⟨path, hp⟩
    rw [follow_rep path (h.rep k)] at hp
    exact subAt_ids path hp
  · intro hi
    obtain ⟨path, hp⟩ := ids_subAt hi
    exact ⟨path, by rw [follow_rep path (h.rep k)]; exact hp⟩

theorem Inv.paths {s : St α} {T : Nat → Tree α} (h : Inv s T) {k k' i : Nat} {path path' : List Bool}
    (h1 : follow s (s.roots k) path = some i) (h2 : follow s (s.roots k') path' = some i) : k = k' ∧ path = path' := by
  rw [h.root, follow_rep _ (h.rep _)] at h1 h2
  have hk : k = k' := by
    by_contra hk
    exact h.disj k k' i hk (subAt_ids _ h1) (subAt_ids _ h2)
  subst hk
  exact ⟨rfl, subAt_inj path (h.nodup k) h1 h2⟩

theorem rep_unique {m m' : Nat → Option (Cell α)} {t : Tree α} (h : Rep m t) (h' : Rep m' t) {i : Nat} (hi : i ∈ ids t) : m i = m' i := by
  induction t with
  | nil => cases hi
  | node j p v hh l r ihl ihr =>
    simp only [ids, List.mem_cons, List.mem_append] at hi
    rcases hi with rfl | hi | hi
    · rw [h.1, h'.1]
    · exact ihl h.2.1 h'.2.1 hi
    · exact ihr h.2.2 h'.2.2 hi

theorem Inv.same {s s' : St α} {T : Nat → Tree α} (h : Inv s T) (h' : Inv s' T) : Same s s' := by
  intro k path
  rw [h.root, h'.root, follow_rep _ (h.rep k), follow_rep _ (h'.rep k)]
  exact ⟨rfl, fun i hi => rep_unique (h.rep k) (h'.rep k) (subAt_ids path hi)⟩

variable [LinearOrder α]

theorem inv_init : Inv (World.init : World α).s fun _ => .nil :=
  ⟨fun _ => trivial, fun _ => rfl, fun _ => List.nodup_nil, (fun _ _ _ _ h => by cases h), fun _ _ => rfl⟩

theorem noLeak_init : NoLeak (World.init : World α).s fun _ => .nil := fun i c h => by cases h

/-- The trees an operation concerns. -/
def names : WOp α → List Nat
  | .call k _ => [k]
  | .copy k j => [k, j]
  | .move k j => [k, j]
  | .destroy k => [k]

/-- One operation of a program. -/
theorem world_step (dflt : α) {w : World α} {T : Nat → Tree α} (h : Inv w.s T) (op : WOp α) :
    ∃ out w' T', w.step dflt op = .ok (out, w') ∧ Inv w'.s T' ∧ (ToEmpty w op → NoLeak w.s T → NoLeak w'.s T') ∧
      (∀ i, i ∉ names op → T' i = T i) ∧ (∀ i, Lost w.s T i → Lost w'.s T' i) ∧ (¬ ToEmpty w op → ∃ i, Lost w'.s T' i) := by
  cases op with
  | call k op =>
    obtain ⟨a', out, s', -, h2, h3, h4⟩ := Mem.step_inv h k (w.obj k) op
    exact ⟨_, _, _, by simp only [World.step, h2, Res.bind_ok]; rfl, h3, fun _ => h4.1,
      fun i hi => upd_ne _ (by simpa [names] using hi) _, h4.2, fun hn => absurd trivial hn⟩
  | copy k j =>
    obtain ⟨s', t', h1, h2, -, h4, h5, h6⟩ := copyTree_inv dflt h k j
    exact ⟨_, _, _, by simp only [World.step, h1, Res.bind_ok]; rfl, h2,
      fun hc => h4 (hc.imp (fun e => ptr_none.1 (by rw [← h.root k]; exact e)) fun e => ptr_none.1 (by rw [← h.root j]; exact e)),
      fun i hi => upd_ne _ (by simp [names] at hi; exact hi.1) _, h5,
      fun hn => h6 (fun e => hn (.inl (by rw [h.root, e]; rfl))) fun e => hn (.inr (by rw [h.root, e]; rfl))⟩
  | move k j =>
    obtain ⟨h1, h2, h3, h4⟩ := moveTree_inv h k j
    refine ⟨_, _, _, rfl, h1, fun hc => h2 (ptr_none.1 (by rw [← h.root k]; exact hc)), fun i hi => ?_, h3,
      fun hn => h4 fun e => hn (by simp only [ToEmpty]; rw [h.root, e]; rfl)⟩
    simp [names] at hi
    rw [upd_ne _ hi.2, upd_ne _ hi.1]
  | destroy k =>
    obtain ⟨s', h1, h2, -, -, h4⟩ := deleteRoot_inv h k
    exact ⟨_, _, _, by simp only [World.step, h1, Res.bind_ok]; rfl, h2, fun _ => h4.1,
      fun i hi => upd_ne _ (by simpa [names] using hi) _, h4.2, fun hn => absurd trivial hn⟩

theorem run_append (dflt : α) (pre post : List (WOp α)) : ∀ {w w1 : World α} {outs}, w.run dflt pre = .ok (outs, w1) →
    w.run dflt (pre ++ post) = (do let (o2, w2) ← w1.run dflt post; .ok (outs ++ o2, w2)) := by
  induction pre with
  | nil =>
    intro w w1 outs h
    simp only [World.run, Res.ok.injEq, Prod.mk.injEq] at h
    obtain ⟨rfl, rfl⟩ := h
    simp only [List.nil_append]
    cases w.run dflt post <;> rfl
  | cons op pre ih =>
    intro w w1 outs h
    simp only [World.run, Res.bind_eq_ok, Prod.exists] at h
    obtain ⟨o, w2, h1, os, w3, h2, h3⟩ := h
    simp only [Res.ok.injEq, Prod.mk.injEq] at h3
    obtain ⟨rfl, rfl⟩ := h3
    simp only [List.cons_append, World.run, h1, Res.bind_ok, ih h2]
    cases w3.run dflt post <;> rfl

/-- Induction over histories from the initial world. -/
theorem run_ind (dflt : α) (P : World α → WOp α → Prop) (Q : List (WOp α) → List (Option Avl.Out) → World α → Prop)
    (h0 : Q [] [] World.init)
    (hs : ∀ ops outs w op, Q ops outs w → P w op → ∃ out w', w.step dflt op = .ok (out, w') ∧ Q (ops ++ [op]) (outs ++ [out]) w')
    (ops : List (WOp α)) (hP : Always dflt P ops) : ∃ outs w, World.init.run dflt ops = .ok (outs, w) ∧ Q ops outs w := by
  induction ops using List.reverseRecOn with
  | nil => exact ⟨[], _, rfl, h0⟩
  | append_singleton ops op ih =>
    obtain ⟨outs, w, h1, h2⟩ := ih fun pre op' post o w e hr => hP pre op' (post ++ [op]) o w (by simp [e]) hr
    obtain ⟨out, w', h3, h4⟩ := hs ops outs w op h2 (hP ops op [] outs w (by simp) h1)
    refine ⟨outs ++ [out], w', ?_, h4⟩
    rw [run_append dflt ops [op] h1]
    simp [World.run, h3]

end Verif.Mem
