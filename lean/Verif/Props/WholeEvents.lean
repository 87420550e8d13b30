import Verif.Props.WholeRun
/-
C85: from trace points to the trace. Trace points, registry and log together: every recorded event
comes from one passage of a trace point that found its category enabled, and while a run goes on no
such passage is lost.
-/
namespace Phosphor.Whole
open TpConc (Follows)
variable {cat : Nat → Str} {tid : Nat → Nat} {s s' : St}

/-- `s` after thread `t` has found the category of trace point `p` enabled and made event `e`. -/
def St.passed (s : St) (t p i : Nat) (e : Ev) : St :=
  { s with
    tp := { s.tp with pc := TpConc.setPc s.tp.pc t .out, tested := (p, i, true) :: s.tp.tested }
    pend := setf s.pend t (e :: s.pend t) }

/-- An execution from `s` to `s'`, and the passages of trace points that found their category
enabled in it: who, and the event made. -/
inductive Run (cat : Nat → Str) (tid : Nat → Nat) (s : St) : List (Nat × Ev) → St → Prop
  | refl : Run cat tid s [] s
  | pass {L s1 t p i} (x : Nat) : Run cat tid s L s1 → s1.tp.pc t = .testing p i →
      s1.tp.reg.statuses i = true →
      Run cat tid s (L ++ [(t, ⟨p, x, if s1.log.enabled then s1.log.buffer else none⟩)])
        (s1.passed t p i ⟨p, x, if s1.log.enabled then s1.log.buffer else none⟩)
  | other {L s1 s2} : Run cat tid s L s1 → Step cat tid s1 s2 →
      (∀ t, (s2.pend t).length ≤ (s1.pend t).length) → Run cat tid s L s2

/-- The passages are all there: every step belongs to an execution in this sense. -/
theorem Run.snoc {L : List (Nat × Ev)} {s1 s2 : St} (h : Run cat tid s L s1) (st : Step cat tid s1 s2) :
    ∃ L', Run cat tid s (L ++ L') s2 := by
  have quiet : (∀ t, s2.pend t = s1.pend t) → ∃ L', Run cat tid s (L ++ L') s2 := fun hp =>
    ⟨[], by rw [List.append_nil]; exact .other h st (fun t => by rw [hp t]; exact Nat.le_refl _)⟩
  cases st with
  | log _ _ _ hc hn => exact quiet (fun _ => rfl)
  | call _ _ _ st => exact quiet (fun _ => rfl)
  | finish _ _ _ _ st => exact quiet (fun _ => rfl)
  | point st _ _ _ => exact quiet (fun _ => rfl)
  | testOff ht hs he => exact quiet (fun _ => rfl)
  | testOn x ht hs he => subst he; exact ⟨_, .pass x h ht hs⟩
  | @emit t e l' hm h1 h2 h3 hn =>
    refine ⟨[], ?_⟩
    rw [List.append_nil]
    refine .other h (.emit hm h1 h2 h3 hn) (fun u => ?_)
    by_cases hu : u = t
    · subst hu; simp only [setf_self]; exact List.length_erase_le
    · simp only [setf_ne _ _ hu]; exact Nat.le_refl _

theorem Run.of_reachable (h : Reachable cat tid s) : ∃ L, Run cat tid St.init L s := by
  induction h with
  | init => exact ⟨[], .refl⟩
  | step _ st ih => obtain ⟨L, hL⟩ := ih; obtain ⟨L', h'⟩ := hL.snoc st; exact ⟨_, h'⟩

theorem Run.reachable {L : List (Nat × Ev)} (hs : Reachable cat tid s) (h : Run cat tid s L s') :
    Reachable cat tid s' := by
  induction h with
  | refl => exact hs
  | pass x _ ht hst ih => exact ih.step (.testOn x ht hst rfl)
  | other _ st _ ih => exact ih.step st

/-- All events of thread `t`: recorded in the buffers made so far, in hand, and not yet logged. -/
def St.all (s : St) (t : Nat) : List Ev :=
  (List.range s.log.nextBuf).flatMap (fun b => s.log.stored b t) ++ (s.log.pc t).event.toList ++ s.pend t

theorem next_buf {l l' : TLog.St Ev} {u : Nat} {c : TLog.Choice Ev} (hn : l.next true tid u c = .to l') :
    l'.nextBuf = l.nextBuf ∨ l'.nextBuf = l.nextBuf + 1 ∧ l'.stored l.nextBuf = fun _ => [] := by
  cases TLog.next_effect hn with
  | quiet _ _ _ _ _ nb => exact Or.inl nb
  | stop _ _ _ _ _ _ nb => exact Or.inl nb
  | enable _ _ _ _ _ _ nb => exact Or.inl nb
  | create _ _ _ _ _ _ _ nb hst => exact Or.inr ⟨nb, hst⟩

/-- How often `e` is in `f 0, …, f (n - 1)`. -/
def cnt (e : Ev) (f : Nat → List Ev) (n : Nat) : Nat := ((List.range n).flatMap f).count e

theorem cnt_succ (e : Ev) (f : Nat → List Ev) (n : Nat) : cnt e f (n + 1) = cnt e f n + (f n).count e := by
  unfold cnt
  rw [List.range_succ, List.flatMap_append, List.count_append]
  simp

theorem cnt_congr {e : Ev} {f g : Nat → List Ev} {n : Nat} (h : ∀ b, b < n → g b = f b) :
    cnt e g n = cnt e f n := by
  induction n with
  | zero => rfl
  | succ n ih => rw [cnt_succ, cnt_succ, ih (fun b hb => h b (by omega)), h n (by omega)]

theorem cnt_update {e x : Ev} {f g : Nat → List Ev} {n b : Nat} (hb : g b = f b ++ [x])
    (h : ∀ b', b' ≠ b → g b' = f b') : cnt e g n ≤ cnt e f n + [x].count e := by
  induction n with
  | zero => simp [cnt]
  | succ n ih =>
    rw [cnt_succ, cnt_succ]
    by_cases hn : n = b
    · subst hn
      have : cnt e g n = cnt e f n := cnt_congr (fun b' hb' => h b' (by omega))
      rw [this, hb, List.count_append]; omega
    · rw [h n hn]; omega

/-- A step of the log makes no events. -/
theorem log_count {l l' : TLog.St Ev} {u : Nat} {c : TLog.Choice Ev} (hn : l.next true tid u c = .to l')
    (t : Nat) (e : Ev) :
    cnt e (fun b => l'.stored b t) l'.nextBuf + (l'.pc t).event.toList.count e ≤
      cnt e (fun b => l.stored b t) l.nextBuf + (l.pc t).event.toList.count e +
        (if u = t then (TLog.calls c).count e else 0) := by
  have hnb : cnt e (fun b => l'.stored b t) l'.nextBuf = cnt e (fun b => l'.stored b t) l.nextBuf := by
    rcases next_buf hn with h | ⟨h, h'⟩
    · rw [h]
    · rw [h, cnt_succ, h']; simp
  rw [hnb]
  rcases TLog.next_fate hn with ⟨x, rfl, hp, rfl⟩ | ⟨_, hf⟩
  · by_cases hu : u = t
    · subst hu
      rw [TLog.goto_pc, hp, if_pos rfl]
      simp only [TLog.Pc.event, TLog.calls, Option.toList_none, Option.toList_some, List.count_nil]
      exact Nat.le_refl _
    · rw [TLog.goto_other _ _ _ _ (Ne.symm hu)]
      exact Nat.le_add_right _ _
  · by_cases hu : u = t
    · subst hu
      cases hf with
      | keep he hs =>
        have : cnt e (fun b => l'.stored b u) l.nextBuf = cnt e (fun b => l.stored b u) l.nextBuf :=
          cnt_congr (fun b hb => by rw [hs b (by omega)])
        rw [this, he]; omega
      | store x b i hp hch hm he hs =>
        have : cnt e (fun b => l'.stored b u) l.nextBuf ≤ cnt e (fun b => l.stored b u) l.nextBuf + [x].count e :=
          cnt_update (b := b) (by rw [hs]; simp [setf]) (fun b' hb' => by rw [hs]; simp [setf, hb'])
        rw [he, hp]
        simp only [TLog.Pc.event, Option.toList_none, Option.toList_some, List.count_nil]
        omega
      | drop hd he hs =>
        rw [hs, he]
        simp only [Option.toList_none, List.count_nil]
        omega
    · rw [TLog.next_pc hn (Ne.symm hu)]
      have : cnt e (fun b => l'.stored b t) l.nextBuf = cnt e (fun b => l.stored b t) l.nextBuf := by
        refine cnt_congr (fun b hb => ?_)
        cases hf with
        | keep _ hs => rw [hs b (by omega)]
        | drop _ _ hs => rw [hs]
        | store x b' i _ _ _ _ hs =>
          rw [hs]
          by_cases h : b = b'
          · subst h; rw [setf_self, setf_ne _ _ (Ne.symm hu)]
          · rw [setf_ne _ _ h]
      rw [this]; omega

theorem all_count (s : St) (t : Nat) (e : Ev) :
    (s.all t).count e = cnt e (fun b => s.log.stored b t) s.log.nextBuf + (s.log.pc t).event.toList.count e +
      (s.pend t).count e := by
  unfold St.all
  rw [List.count_append, List.count_append]
  rfl

/-- C85: over any execution, the events a thread has recorded in all buffers, has in hand and has still
to log are not more than its passages of trace points that found their category enabled: every recorded
event comes from such a passage, and no passage is recorded twice, in one buffer or in several. -/
theorem C85_once {L : List (Nat × Ev)} (h : Run cat tid s L s') (t : Nat) (e : Ev) :
    (s'.all t).count e ≤ (s.all t).count e + L.count (t, e) := by
  induction h with
  | refl => simp
  | @pass L s1 u p i x _ ht hst ih =>
    rw [all_count] at ih ⊢
    rw [List.count_append]
    show cnt e (fun b => s1.log.stored b t) s1.log.nextBuf + (s1.log.pc t).event.toList.count e +
      (setf s1.pend u (_ :: s1.pend u) t).count e ≤ _
    by_cases hu : t = u
    · subst hu
      rw [setf_self, List.count_cons]
      by_cases he : (⟨p, x, if s1.log.enabled then s1.log.buffer else none⟩ : Ev) = e
      · subst he; simp; omega
      · simp [he]; omega
    · rw [setf_ne _ _ hu]; omega
  | @other L s1 s2 _ st hl ih =>
    rw [all_count] at ih ⊢
    cases st with
    | @log u c l' _ _ _ hc hn =>
      have := log_count hn t e
      have h0 : TLog.calls c = [] := by
        cases c with
        | log x => exact absurd rfl (hc x)
        | _ => rfl
      rw [h0] at this
      simp only [List.count_nil, ite_self] at this
      show cnt e (fun b => l'.stored b t) l'.nextBuf + (l'.pc t).event.toList.count e +
        (s1.pend t).count e ≤ _
      omega
    | call _ _ _ st => exact ih
    | finish _ _ _ _ st => exact ih
    | point st _ _ _ => exact ih
    | testOff ht hs he => exact ih
    | @testOn u p i tp' x ht hs he =>
      exfalso
      have := hl u
      simp at this
      omega
    | @emit u x l' hm h1 h2 h3 hn =>
      have := log_count hn t e
      show cnt e (fun b => l'.stored b t) l'.nextBuf + (l'.pc t).event.toList.count e +
        (setf s1.pend u ((s1.pend u).erase x) t).count e ≤ _
      by_cases hu : t = u
      · subst hu
        rw [if_pos rfl] at this
        rw [setf_self]
        have h4 : ((s1.pend t).erase x).count e + [x].count e = (s1.pend t).count e := by
          have := (List.perm_cons_erase hm).count_eq e
          rw [this, List.count_cons, List.count_cons, List.count_nil]; omega
        simp only [TLog.calls] at this
        omega
      · rw [if_neg (Ne.symm hu)] at this
        rw [setf_ne _ _ hu]
        omega

/-- C85, from the beginning of the program. -/
theorem C85_recorded_once {L : List (Nat × Ev)} (h : Run cat tid St.init L s) (t : Nat) (e : Ev) :
    ((List.range s.log.nextBuf).flatMap (fun b => s.log.stored b t)).count e ≤ L.count (t, e) := by
  have := C85_once h t e
  rw [all_count, all_count] at this
  have h0 : cnt e (fun b => (St.init).log.stored b t) (St.init).log.nextBuf = 0 := rfl
  have h1 : ((St.init).log.pc t).event.toList.count e = 0 := rfl
  have h2 : ((St.init).pend t).count e = 0 := rfl
  have h3 : cnt e (fun b => s.log.stored b t) s.log.nextBuf =
    ((List.range s.log.nextBuf).flatMap (fun b => s.log.stored b t)).count e := rfl
  omega

/-- Events of thread `t` in buffer `b`, in hand and still to be logged. -/
def St.here (s : St) (b t : Nat) : List Ev :=
  s.log.stored b t ++ (s.log.pc t).event.toList ++ s.pend t

/-- The buffers keep their kind and size, and hand out more and more chunks; the history grows. -/
theorem Run.keeps {L : List (Nat × Ev)} (hs : Reachable cat tid s) (h : Run cat tid s L s') {b : Nat}
    (hb : b < s.log.nextBuf) :
    (∃ new, s'.log.hist = new ++ s.log.hist) ∧ s.log.nextBuf ≤ s'.log.nextBuf ∧
    (s.log.heap b).counter ≤ (s'.log.heap b).counter ∧
    (s'.log.heap b).chunks.length = (s.log.heap b).chunks.length ∧
    (s'.log.heap b).mode = (s.log.heap b).mode := by
  induction h with
  | refl => exact ⟨⟨[], rfl⟩, Nat.le_refl _, Nat.le_refl _, rfl, rfl⟩
  | pass x _ ht hst ih => exact ih
  | @other L s1 s2 hr st hl ih =>
    obtain ⟨⟨new, h1⟩, h2, h3, h4, h5⟩ := ih
    obtain ⟨c, w⟩ := winv (hr.reachable hs)
    have key : ∀ {u c l'}, s1.log.next true tid u c = .to l' →
        (∃ new, l'.hist = new ++ s.log.hist) ∧ s.log.nextBuf ≤ l'.nextBuf ∧
        (s.log.heap b).counter ≤ (l'.heap b).counter ∧
        (l'.heap b).chunks.length = (s.log.heap b).chunks.length ∧
        (l'.heap b).mode = (s.log.heap b).mode := by
      intro u c l' hn
      obtain ⟨n, e⟩ := TLog.next_hist hn
      have k := TLog.run_counter (b := b) (l := [(u, c)]) (s' := l') w.log (by omega) (by simp only [TLog.St.run, hn])
      have := TLog.nextBuf_mono hn
      exact ⟨⟨n ++ new, by rw [e, h1, List.append_assoc]⟩, by omega, by omega, k.2.1.trans h4, k.2.2.trans h5⟩
    cases st with
    | log _ _ _ hc hn => exact key hn
    | emit _ _ _ _ hn => exact key hn
    | _ => exact ⟨⟨new, h1⟩, h2, h3, h4, h5⟩

/-- C85: in any execution by any threads during which tracing is on and not stopped, thread `t` stays
registered and nobody is refused a chunk (which never happens in a ring), every passage by `t` of a
trace point that finds its category enabled is recorded in the buffer of the run, exactly once (the
event may still be in hand or in a scope that has not ended). -/
theorem C85_stored (hs : Reachable cat tid s) {L : List (Nat × Ev)} (h : Run cat tid s L s') {b t : Nat}
    (hon : s.log.enabled = true) (hreg : TLog.isReg t s.log.hist = true) (hb : s.log.buffer = some b)
    {new : List TLog.Item} (hh : s'.log.hist = new ++ s.log.hist)
    (hns : ∀ sh full, TLog.Item.stop sh full ∉ new) (hnd : TLog.Item.deregOk t ∉ new)
    (hf : (s'.log.heap b).mode = .ring ∨ (s'.log.heap b).counter ≤ (s'.log.heap b).chunks.length) (e : Ev) :
    (s'.here b t).count e = (s.here b t).count e + L.count (t, e) ∧ s'.log.buffer = some b := by
  obtain ⟨c0, w0⟩ := winv hs
  have hbn : b < s.log.nextBuf := by have := w0.log.ctl.last b hb; omega
  induction h generalizing new with
  | refl => exact ⟨by simp, hb⟩
  | @pass L s1 u p i x _ ht hst ih =>
    obtain ⟨h1, h2⟩ := ih hh hns hnd hf
    refine ⟨?_, h2⟩
    unfold St.here at h1 ⊢
    simp only [List.count_append] at h1 ⊢
    show (s1.log.stored b t).count e + (s1.log.pc t).event.toList.count e +
      (setf s1.pend u (_ :: s1.pend u) t).count e = _
    by_cases hu : t = u
    · subst hu
      rw [setf_self, List.count_cons]
      by_cases he : (⟨p, x, if s1.log.enabled then s1.log.buffer else none⟩ : Ev) = e
      · subst he; simp; omega
      · simp [he]; omega
    · have : [(u, (⟨p, x, if s1.log.enabled then s1.log.buffer else none⟩ : Ev))].count (t, e) = 0 := by
        simp [Ne.symm hu]
      rw [setf_ne _ _ hu]; omega
  | @other L s1 s2 hr st hl ih =>
    obtain ⟨c, w⟩ := winv (hr.reachable hs)
    obtain ⟨⟨n1, e1⟩, k1, _⟩ := hr.keeps hs hbn
    have key : ∀ {u c l'}, s1.log.next true tid u c = .to l' → l' = s2.log →
        (s1.here b t).count e = (s.here b t).count e + L.count (t, e) ∧
        l'.stored b t ++ (l'.pc t).event.toList =
          s1.log.stored b t ++ (s1.log.pc t).event.toList ++ (if u = t then TLog.calls c else []) ∧
        l'.buffer = some b := by
      rintro u c l' hn rfl
      obtain ⟨n2, e2⟩ := TLog.next_hist hn
      have hnew : new = n2 ++ n1 := by
        rw [e2, e1, ← List.append_assoc] at hh
        exact (List.append_cancel_right hh).symm
      subst hnew
      have k := TLog.run_counter (b := b) (l := [(u, c)]) (s' := s2.log) w.log (by omega) (by simp only [TLog.St.run, hn])
      have hf1 : (s1.log.heap b).mode = .ring ∨ (s1.log.heap b).counter ≤ (s1.log.heap b).chunks.length :=
        hf.imp (fun hm => by rw [← k.2.2]; exact hm) (fun hm => by omega)
      obtain ⟨h1, h2⟩ := ih e1 (fun a b hm => hns a b (by simp [hm])) (fun hm => hnd (by simp [hm])) hf1
      have hon1 : TLog.on s1.log.hist = true := by
        rw [e1]
        exact TLog.on_keep (fun a b hm => hns a b (by simp [hm])) (by rw [← w0.log.hist.en]; exact hon)
      have hreg1 : TLog.isReg t s1.log.hist = true := by
        rw [e1]; exact TLog.isReg_keep (fun hm => hnd (by simp [hm])) hreg
      refine ⟨h1, TLog.complete_step (t := t) w.log.hist w.log.ctl0 w.log.data hn hon1 hreg1 h2 hf, ?_⟩
      rw [(TLog.buffer_keep w.log hn (by rw [w.log.hist.en]; exact hon1)).1]; exact h2
    cases st with
    | @log u c l' _ _ _ hc hn =>
      obtain ⟨h1, h2, h3⟩ := key hn rfl
      have h0 : TLog.calls c = [] := by
        cases c with
        | log x => exact absurd rfl (hc x)
        | _ => rfl
      rw [h0, ite_self, List.append_nil] at h2
      refine ⟨?_, h3⟩
      rw [← h1]
      show (l'.stored b t ++ (l'.pc t).event.toList ++ s1.pend t).count e = _
      rw [h2]; rfl
    | call _ _ _ st => exact ih hh hns hnd hf
    | finish _ _ _ _ st => exact ih hh hns hnd hf
    | point st _ _ _ => exact ih hh hns hnd hf
    | testOff ht hs he => exact ih hh hns hnd hf
    | @testOn u p i tp' x ht hs he =>
      exfalso
      have := hl u
      simp at this
      omega
    | @emit u x l' hm _ _ _ hn =>
      obtain ⟨h1, h2, h3⟩ := key hn rfl
      refine ⟨?_, h3⟩
      rw [← h1]
      show (l'.stored b t ++ (l'.pc t).event.toList ++ setf s1.pend u ((s1.pend u).erase x) t).count e = _
      rw [h2]
      unfold St.here
      by_cases hu : t = u
      · subst hu
        have h4 : ((s1.pend t).erase x).count e + [x].count e = (s1.pend t).count e := by
          have := (List.perm_cons_erase hm).count_eq e
          rw [this, List.count_cons, List.count_cons, List.count_nil]; omega
        rw [if_pos rfl, setf_self]
        simp only [List.count_append, TLog.calls]
        omega
      · rw [if_neg (Ne.symm hu), setf_ne _ _ hu, List.append_nil]

/-- C85, the trace of a run: tracing is on in `s` with nothing recorded, in hand or pending of thread `t`,
which stays registered; any threads do anything until `s'`, where the run has not been stopped, nobody
has been refused a chunk, and `t` is outside of scopes and calls again. Then reading the buffer yields for
thread `t` its passages of trace points that found their category enabled, each exactly once. -/
theorem C85_trace (hinj : ∀ u v, tid u = tid v → u = v) (hs : Reachable cat tid s) {L : List (Nat × Ev)}
    (h : Run cat tid s L s') {b t : Nat} (hon : s.log.enabled = true) (hreg : TLog.isReg t s.log.hist = true)
    (hb : s.log.buffer = some b) (h0 : s.here b t = [])
    {new : List TLog.Item} (hh : s'.log.hist = new ++ s.log.hist)
    (hns : ∀ sh full, TLog.Item.stop sh full ∉ new) (hnd : TLog.Item.deregOk t ∉ new)
    (hm : (s'.log.heap b).mode ≠ .ring) (hf : (s'.log.heap b).counter ≤ (s'.log.heap b).chunks.length)
    (hi : (s'.log.pc t).event = none) (hp : s'.pend t = []) :
    ∃ evs, TLog.Reads (s'.log.heap b) evs ∧
      ∀ e, (TLog.ofId (tid t) evs).count e = L.count (t, e) := by
  obtain ⟨c, w⟩ := winv (h.reachable hs)
  obtain ⟨evs, h1, h2⟩ := TLog.C48_read hinj w.log b hm
  refine ⟨evs, h1, fun e => ?_⟩
  rw [h2]
  have := (C85_stored hs h hon hreg hb hh hns hnd (Or.inr hf) e).1
  rw [h0] at this
  unfold St.here at this
  rw [hi, hp] at this
  simpa using this

/-- The passage that operation `op` is. -/
def passes (s : St) : Op → List (Nat × Ev)
  | .test t x =>
    match s.tp.pc t with
    | .testing p i =>
      if s.tp.reg.statuses i then [(t, ⟨p, x, if s.log.enabled then s.log.buffer else none⟩)] else []
    | _ => []
  | _ => []

theorem exec_run {L : List (Nat × Ev)} {s1 s2 : St} {op : Op} (h : Run cat tid s L s1)
    (he : exec cat tid s1 op = some s2) : Run cat tid s (L ++ passes s1 op) s2 := by
  have st := exec_step he
  have quiet : (∀ t, (s2.pend t).length ≤ (s1.pend t).length) → passes s1 op = [] →
      Run cat tid s (L ++ passes s1 op) s2 := fun hp h0 => by
    rw [h0, List.append_nil]; exact .other h st hp
  unfold exec at he
  cases op with
  | log t c =>
    refine quiet (fun u => ?_) rfl
    dsimp only at he
    split at he
    · split at he
      · cases he; exact Nat.le_refl _
      · cases he
    · cases he
  | emit t =>
    refine quiet (fun u => ?_) rfl
    dsimp only at he
    split at he
    · cases he
    · split at he
      · split at he
        · cases he
          by_cases hu : u = t
          · subst hu; simp only [setf_self]; exact List.length_erase_le
          · simp only [setf_ne _ _ hu]; exact Nat.le_refl _
        · cases he
      · cases he
  | call t =>
    refine quiet (fun u => ?_) rfl
    dsimp only at he
    split at he
    · split at he
      · cases he; exact Nat.le_refl _
      · cases he
    · cases he
  | upd t =>
    refine quiet (fun u => ?_) rfl
    dsimp only at he
    split at he
    · split at he
      · cases he; exact Nat.le_refl _
      · split at he
        · cases he; exact Nat.le_refl _
        · cases he
    · cases he
  | enter t p =>
    refine quiet (fun u => ?_) rfl
    dsimp only at he
    split at he
    · cases he; exact Nat.le_refl _
    · cases he
  | found t =>
    refine quiet (fun u => ?_) rfl
    dsimp only at he
    split at he
    · split at he
      · cases he; exact Nat.le_refl _
      · cases he
    · cases he
  | store t =>
    refine quiet (fun u => ?_) rfl
    dsimp only at he
    split at he
    · cases he; exact Nat.le_refl _
    · cases he
  | test t x =>
    dsimp only at he
    split at he
    · rename_i p i hp
      split at he
      · rename_i hst
        cases he
        have : passes s1 (.test t x) = [(t, ⟨p, x, if s1.log.enabled then s1.log.buffer else none⟩)] := by
          simp only [passes, hp, hst, if_true]
        rw [this]
        exact .pass x h hp hst
      · rename_i hst
        cases he
        refine quiet (fun u => Nat.le_refl _) ?_
        simp only [passes, hp, hst, Bool.false_eq_true, if_false]
    · cases he

/-- Execute, and collect the passages. -/
def execsL (cat : Nat → Str) (tid : Nat → Nat) : List Op → List (Nat × Ev) → St → Option (List (Nat × Ev) × St)
  | [], L, s => some (L, s)
  | op :: ops, L, s => match exec cat tid s op with
    | some s' => execsL cat tid ops (L ++ passes s op) s'
    | none => none

theorem execsL_run {ops : List Op} {L L' : List (Nat × Ev)} {s1 s2 : St} (h : Run cat tid s L s1)
    (he : execsL cat tid ops L s1 = some (L', s2)) : Run cat tid s L' s2 := by
  induction ops generalizing L s1 with
  | nil => cases he; exact h
  | cons op ops ih =>
    unfold execsL at he
    split at he
    · rename_i hx; exact ih (exec_run h hx) he
    · cases he

/-- Thread 1 executes trace point 6, which logs at once. -/
def point6 : List Op := [.enter 1 6, .found 1, .store 1, .test 1 8] ++ emit1

/-- Neither stops tracing nor deregisters. -/
def calm : TLog.Item → Bool
  | .stop _ _ => false
  | .deregOk _ => false
  | _ => true

/-- What is to be checked of the end of the example. -/
def endOk (s : St) (x : List (Nat × Ev) × St) : Bool :=
  decide (x.2.log.hist.drop (x.2.log.hist.length - s.log.hist.length) = s.log.hist) &&
  (x.2.log.hist.take (x.2.log.hist.length - s.log.hist.length)).all calm &&
  decide ((x.2.log.heap 0).mode ≠ .ring) &&
  decide ((x.2.log.heap 0).counter ≤ (x.2.log.heap 0).chunks.length) &&
  decide ((x.2.log.pc 1).event = none) && decide (x.2.pend 1 = []) &&
  decide (x.1 = [(1, ⟨5, 7, some 0⟩), (1, ⟨6, 8, some 0⟩)]) &&
  decide (x.2.here 0 1 = [⟨6, 8, some 0⟩, ⟨5, 7, some 0⟩])

/-- What is to be checked of its beginning. -/
def beginOk (s : St) : Bool :=
  s.log.enabled && TLog.isReg 1 s.log.hist && decide (s.log.buffer = some 0) && decide (s.here 0 1 = []) &&
  (execsL dflt id (point1 ++ [.test 1 7] ++ point6 ++ (.emit 1 :: List.replicate 6 (.log 1 .step))) [] s).any
    (endOk s)

/-- A case of all of C85: while tracing, thread 1 begins a scope at trace point 5, passes trace point 6
inside of it, and leaves the scope. Both events are recorded. -/
theorem two_passages : ∃ s s' L new, Reachable dflt id s ∧ Run dflt id s L s' ∧ s.log.enabled = true ∧
    TLog.isReg 1 s.log.hist = true ∧ s.log.buffer = some 0 ∧ s.here 0 1 = [] ∧
    s'.log.hist = new ++ s.log.hist ∧ (∀ sh full, TLog.Item.stop sh full ∉ new) ∧
    TLog.Item.deregOk 1 ∉ new ∧ (s'.log.heap 0).mode ≠ .ring ∧
    (s'.log.heap 0).counter ≤ (s'.log.heap 0).chunks.length ∧
    (s'.log.pc 1).event = none ∧ s'.pend 1 = [] ∧
    L = [(1, ⟨5, 7, some 0⟩), (1, ⟨6, 8, some 0⟩)] ∧ s'.here 0 1 = [⟨6, 8, some 0⟩, ⟨5, 7, some 0⟩] := by
  obtain ⟨s, h1, h2⟩ := some_of (o := execs dflt id (reg1 ++ start0 all1) St.init) (f := beginOk)
    (by decide +kernel)
  simp only [beginOk, Bool.and_eq_true, decide_eq_true_eq] at h2
  obtain ⟨⟨⟨⟨a1, a2⟩, a3⟩, a4⟩, a5⟩ := h2
  obtain ⟨⟨L, s'⟩, h3, h4⟩ := some_of a5
  simp only [endOk, Bool.and_eq_true, decide_eq_true_eq, List.all_eq_true] at h4
  obtain ⟨⟨⟨⟨⟨⟨⟨b1, b2⟩, b3⟩, b4⟩, b5⟩, b6⟩, b7⟩, b8⟩ := h4
  refine ⟨s, s', L, s'.log.hist.take (s'.log.hist.length - s.log.hist.length), execs_reachable .init h1,
    execsL_run .refl h3, a1, a2, a3, a4, ?_, ?_, ?_, b3, b4, b5, b6, b7, b8⟩
  · conv => rhs; rhs; rw [← b1]
    exact (List.take_append_drop _ _).symm
  · intro sh full hm; cases b2 _ hm
  · intro hm; cases b2 _ hm

end Phosphor.Whole
