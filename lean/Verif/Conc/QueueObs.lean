import Verif.Conc.QueueProps

/-
C115: the observers `size()` and `empty()` of the message queue (message_queue.h:113-126).
-/

namespace Verif.MsgQueue

variable {α : Type}

/-- The messages taken out of the container for `on_new_message`. -/
def takenOut : List (Event α) → List α
  | [] => []
  | .taken m _ :: l => takenOut l ++ [m]
  | _ :: l => takenOut l

/-- After the events `l` the container holds `n` messages: those inserted less those taken out or dropped. -/
def Holds (l : List (Event α)) (n : Nat) : Prop :=
  (received l).length = (takenOut l).length + (discarded l).length + n

/-- Every answer of the log was right when it was given. -/
def ObsOk : List (Event α) → Prop
  | [] => True
  | .sizeRet _ n :: l => Holds l n ∧ ObsOk l
  | .emptyRet _ b :: l => (b = true ↔ Holds l 0) ∧ ObsOk l
  | _ :: l => ObsOk l

structure Obs (s : St α) : Prop where
  holds : Holds s.log s.queue.length
  size  : ∀ t n, s.cpc t = .sizeRelease n → n = s.queue.length
  empty : ∀ t b, s.cpc t = .emptyRelease b → b = s.queue.isEmpty
  obs   : ObsOk s.log

theorem obs_init : Obs (init : St α) := ⟨rfl, (fun _ _ h => by cases h), (fun _ _ h => by cases h), trivial⟩

/-- Steps that leave container, log and clients alone. -/
theorem obs_same {s s' : St α} (h : Obs s) (h1 : s'.queue = s.queue) (h2 : s'.log = s.log) (h3 : s'.cpc = s.cpc) : Obs s' := by
  obtain ⟨a, b, c, d⟩ := h
  refine ⟨?_, ?_, ?_, ?_⟩
  · rw [h1, h2]; exact a
  · rw [h1, h3]; exact b
  · rw [h1, h3]; exact c
  · rw [h2]; exact d

theorem obs_step {pick : Pick α} (hp : GoodPick pick) {s s' : St α} {a : Act α} (hi : Inv s) (h : Obs s)
    (hs : step pick s a = some s') : Obs s' := by
  have hwc : s.wpc.owns = true → ∀ t, (s.cpc t).owns = false := by
    intro hw t
    have h1 := hi.wown.1 hw
    cases hc : (s.cpc t).owns with
    | false => rfl
    | true => have := (hi.cown t).1 hc; rw [h1] at this; cases this
  cases a with
  | start =>
    simp only [step] at hs
    split at hs <;> first | cases hs; done | (injection hs with hs; subst hs; exact obs_same h rfl rfl rfl)
  | wake =>
    simp only [step] at hs
    split at hs <;> first | cases hs; done | (injection hs with hs; subst hs; exact obs_same h rfl rfl rfl)
  | timeout =>
    simp only [step] at hs
    split at hs <;> first | cases hs; done | (injection hs with hs; subst hs; exact obs_same h rfl rfl rfl)
  | call t op =>
    simp only [step] at hs
    split at hs
    · injection hs with hs; subst hs
      obtain ⟨a, b, c, d⟩ := h
      cases op <;> refine ⟨a, fun u n hu => ?_, fun u n hu => ?_, d⟩ <;>
        simp only [enter, St.c] at hu ⊢ <;> split at hu <;> first | cases hu; done | exact b u n hu | exact c u n hu
    · cases hs
  | worker =>
    simp only [step, worker] at hs
    cases hw : s.wpc <;> rw [hw] at hs <;> simp only [reduceCtorEq] at hs
    case clearLoop =>
      have hno := hwc (by rw [hw]; rfl)
      split at hs
      · injection hs with hs; subst hs; exact obs_same h rfl rfl rfl
      · rename_i hne
        obtain ⟨m, q, e1, e2⟩ := hp.some s.queue (by simpa using hne)
        rw [e1] at hs
        injection hs with hs; subst hs
        refine ⟨?_, fun u n hu => ?_, fun u n hu => ?_, h.obs⟩
        · have := h.holds
          have hl := e2.length_eq
          simp only [Holds, St.emit, St.w, St.c, received, takenOut, discarded, List.length_append, List.length_cons, List.length_nil] at this hl ⊢
          omega
        · have := hno u; simp only [St.emit] at hu; rw [hu] at this; cases this
        · have := hno u; simp only [St.emit] at hu; rw [hu] at this; cases this
    case popTake =>
      have hno := hwc (by rw [hw]; rfl)
      obtain ⟨m, q, e1, e2⟩ := hp.some s.queue (hi.saw (by rw [hw]; rfl))
      rw [e1] at hs
      injection hs with hs; subst hs
      refine ⟨?_, fun u n hu => ?_, fun u n hu => ?_, h.obs⟩
      · have := h.holds
        have hl := e2.length_eq
        simp only [Holds, St.emit, St.w, St.c, received, takenOut, discarded, List.length_append, List.length_cons, List.length_nil] at this hl ⊢
        omega
      · have := hno u; simp only [St.emit, St.w] at hu; rw [hu] at this; cases this
      · have := hno u; simp only [St.emit, St.w] at hu; rw [hu] at this; cases this
    all_goals (try split at hs)
    all_goals (first | cases hs; done | (injection hs with hs))
    all_goals (try split at hs)
    all_goals (subst hs)
    all_goals (first
      | exact obs_same h rfl rfl rfl
      | exact ⟨h.holds, h.size, h.empty, h.obs⟩)
  | client t =>
    obtain ⟨a, b, c, d⟩ := h
    simp only [step, client] at hs
    cases hc : s.cpc t <;> rw [hc] at hs <;> simp only [reduceCtorEq] at hs
    case pushBody m =>
      injection hs with hs; subst hs
      have ht := (hi.cown t).1 (by rw [hc]; rfl)
      have hex : ∀ u, u ≠ t → (s.cpc u).owns = false := by
        intro u hu
        cases ho : (s.cpc u).owns with
        | false => rfl
        | true =>
          have := (hi.cown u).1 ho
          rw [ht] at this
          injection this with this
          injection this with this
          exact absurd this.symm hu
      refine ⟨?_, fun u n hu => ?_, fun u n hu => ?_, d⟩
      · simp only [Holds, St.emit, St.w, St.c, received, takenOut, discarded, List.length_append, List.length_cons, List.length_nil] at a ⊢
        omega
      · simp only [St.emit, St.c] at hu
        split at hu
        · cases hu
        · rename_i hne; have := hex u hne; rw [hu] at this; cases this
      · simp only [St.emit, St.c] at hu
        split at hu
        · cases hu
        · rename_i hne; have := hex u hne; rw [hu] at this; cases this
    case sizeRelease n =>
      injection hs with hs; subst hs
      have hn := b t n hc
      refine ⟨a, fun u n hu => ?_, fun u n hu => ?_, ⟨by rw [hn]; exact a, d⟩⟩ <;>
        simp only [St.emit, St.c] at hu <;> split at hu <;> first | cases hu; done | exact b u _ hu | exact c u _ hu
    case emptyRelease e =>
      injection hs with hs; subst hs
      have he := c t e hc
      refine ⟨a, fun u n hu => ?_, fun u n hu => ?_, ⟨?_, d⟩⟩
      · simp only [St.emit, St.c] at hu
        split at hu <;> first | cases hu; done | exact b u _ hu
      · simp only [St.emit, St.c] at hu
        split at hu <;> first | cases hu; done | exact c u _ hu
      · rw [he]
        simp only [Holds, St.c] at a ⊢
        cases hq : s.queue with
        | nil => rw [hq] at a; simp at a; simp [a]
        | cons x q => rw [hq] at a; simp at a; simp [a]
    case sizeRead =>
      injection hs with hs; subst hs
      refine ⟨a, fun u n hu => ?_, fun u n hu => ?_, d⟩
      · simp only [St.c] at hu
        split at hu
        · injection hu with hu; exact hu.symm
        · exact b u n hu
      · simp only [St.c] at hu
        split at hu
        · cases hu
        · exact c u n hu
    case emptyRead =>
      injection hs with hs; subst hs
      refine ⟨a, fun u n hu => ?_, fun u n hu => ?_, d⟩
      · simp only [St.c] at hu
        split at hu
        · cases hu
        · exact b u n hu
      · simp only [St.c] at hu
        split at hu
        · injection hu with hu; exact hu.symm
        · exact c u n hu
    all_goals (try split at hs)
    all_goals (first | cases hs; done | (injection hs with hs))
    all_goals (subst hs)
    all_goals
      refine ⟨a, fun u n hu => ?_, fun u n hu => ?_, d⟩ <;>
        simp only [St.emit, St.c] at hu <;> split at hu <;> first | cases hu; done | exact b u _ hu | exact c u _ hu

theorem obsOk_at {l1 : List (Event α)} : ∀ {e : Event α} {l2 : List (Event α)}, ObsOk (l1 ++ e :: l2) → ObsOk (e :: l2) := by
  induction l1 with
  | nil => exact fun h => h
  | cons x l1 ih =>
    intro e l2 h
    cases x <;> simp only [List.cons_append, ObsOk] at h <;> first | exact ih h | exact ih h.2

/-- C115: whatever the threads do, `size()` returns the number of messages inserted and not yet taken out or dropped at the
moment it answers, and `empty()` whether there is none. -/
theorem C115_observers (pick : Pick α) (hp : GoodPick pick) (s : St α) (h : Reach pick s) :
    (∀ l1 l2 t n, s.log = l1 ++ .sizeRet t n :: l2 → Holds l2 n) ∧
    (∀ l1 l2 t b, s.log = l1 ++ .emptyRet t b :: l2 → (b = true ↔ Holds l2 0)) ∧
    Holds s.log s.queue.length := by
  have hb : Inv s ∧ Obs s :=
    reach_ind (P := fun s => Inv s ∧ Obs s) ⟨inv_init, obs_init⟩
      (fun s a s' hi hs => ⟨inv_step hp hi.1 a hs, obs_step hp hi.1 hi.2 hs⟩) h
  refine ⟨fun l1 l2 t n e => ?_, fun l1 l2 t b e => ?_, hb.2.holds⟩
  · have := hb.2.obs; rw [e] at this; exact (obsOk_at this).1
  · have := hb.2.obs; rw [e] at this; exact (obsOk_at this).1

/-- Three messages, one processed, one in the hands of the worker: `size()` is 1 and `empty()` false. -/
example :
    let send (t m : Nat) : List (Act Nat) := [.call t (.receive m), .client t, .client t, .client t, .client t]
    (exec pickFront init (send 1 10 ++ send 2 20 ++ send 1 30 ++ [.start] ++ List.replicate 17 .worker ++
      [.call 5 .size, .client 5, .client 5, .client 5, .call 6 .empty, .client 6, .client 6, .client 6])).map
      (fun s => (s.wpc, processed s.log, takenOut s.log, s.log.take 2)) =
    some (.handle 20, [10], [10, 20], [.emptyRet 6 false, .sizeRet 5 1]) := by
  decide +kernel

end Verif.MsgQueue
