import Verif.Spec.Export
import Verif.Proof.TraceBuffer
import Verif.Proof.InlineZString
import Verif.Proof.Event
import Verif.Proof.TraceConfig
/-
Lemmas about the exporter.
-/
namespace Phosphor

/-! ### Iterator steps -/

theorem Normal.rest_nil_iff {contents : List (Nat × List Event)} {it : EventIter}
    (h : it.Normal contents) : it.rest contents = [] ↔ it.parent = contents.length := by
  unfold EventIter.rest
  by_cases hp : it.parent = contents.length
  · simp [hp]
  · simp only [hp, if_false, iff_false]
    rcases h.2 with h' | ⟨k, tid, evs, hget, hk, hc⟩
    · exact absurd h' hp
    · rw [hc]
      simp only [remaining, hget]
      rw [List.drop_eq_getElem_cons hk]
      exact fun h => by cases h

theorem Normal.step {b : Buffer Event} {contents : List (Nat × List Event)} {it : EventIter}
    (h : b.Holds contents) (hn : it.Normal contents) {e : Event} {tid : Nat}
    {r : List (Event × Nat)} (hr : it.rest contents = (e, tid) :: r) :
    it.deref b = .ok e ∧ (∃ c, it.getParent b = .ok c ∧ c.threadId = tid) ∧
      ∃ it', it.next b = .ok it' ∧ it'.Normal contents ∧ it'.rest contents = r := by
  have hsize : contents.length ≤ b.chunks.length := by
    rw [← h.count]; exact chunkCount_le b
  have hp : it.parent ≠ contents.length := by
    intro hp
    have := (Normal.rest_nil_iff hn).2 hp
    rw [hr] at this; cases this
  obtain ⟨hend, hpos⟩ := hn
  rcases hpos with hpos | ⟨k, tid', evs, hget, hk, hc⟩
  · exact absurd hpos hp
  obtain ⟨c, hch, htid, hh⟩ := h.chunk _ _ _ hget
  obtain ⟨it', hs, hn', hr'⟩ := seek_spec h hsize
    { it with child := (it.child.1, it.child.2 + 1) } (k + 1) tid' evs hget hend
    (by simp [hc]) hk
  have hrest : it.rest contents = (evs[k], tid') :: it'.rest contents := by
    rw [hr']
    unfold EventIter.rest
    rw [if_neg hp, hc]
    simp only [remaining, hget]
    rw [List.drop_eq_getElem_cons hk]
    rfl
  rw [hr] at hrest
  simp only [List.cons.injEq, Prod.mk.injEq] at hrest
  obtain ⟨⟨rfl, rfl⟩, rfl⟩ := hrest
  refine ⟨?_, ⟨c, ?_, htid⟩, it', hs, hn', rfl⟩
  · simp only [EventIter.deref, hc, Buffer.chunkAt, hch, Res.bind_ok]
    exact hh.events k _ (List.getElem?_eq_getElem hk)
  · simp only [EventIter.getParent, Buffer.chunkAt, hch]

theorem begin_spec {b : Buffer Event} {contents : List (Nat × List Event)} (h : b.Holds contents) :
    ∃ it, b.begin = .ok it ∧ it.Normal contents ∧ it.rest contents = flatEvents contents := by
  have hsize : contents.length ≤ b.chunks.length := by
    rw [← h.count]; exact chunkCount_le b
  by_cases h0 : contents = []
  · have hc : b.chunkCount = 0 := by rw [h.count, h0]; rfl
    refine ⟨⟨0, 0, (0, 0)⟩, by simp [Buffer.begin, EventIter.make, EventIter.seek, hc],
      ⟨by simp [h0], Or.inl (by simp [h0])⟩, by simp [EventIter.rest, h0, flatEvents]⟩
  · have hlt : 0 < contents.length := List.length_pos_iff.2 h0
    obtain ⟨it, hs, hn, hr⟩ := seek_spec h hsize ⟨0, b.chunkCount, (0, 0)⟩ 0 (contents[0]).1
      (contents[0]).2 (List.getElem?_eq_getElem hlt) h.count rfl (Nat.zero_le _)
    refine ⟨it, hs, hn, ?_⟩
    rw [hr, remaining_zero]; simp

/-! ### The state machine -/

/-- All items, each preceded by a comma. -/
def commaEach (l : List Str) : Str := l.flatMap (fun s => ',' :: s)

theorem commaJoin_cons (s : Str) (l : List Str) : commaJoin (s :: l) = s ++ commaEach l := by
  induction l generalizing s with
  | nil => simp [commaJoin, commaEach]
  | cons t l ih => rw [commaJoin, ih]; · simp [commaEach]
                   · simp

namespace Exporter

/-- The texts still to be generated. -/
def items (pid : Int) (contents : List (Nat × List Event)) (x : Exporter) : List Str :=
  x.tit.map (threadAssociationToString pid) ++ (x.it.rest contents).map (eventText pid)

/-- The text still to be generated. -/
def pending (pid : Int) (contents : List (Nat × List Event)) (x : Exporter) : Str :=
  match x.state with
  | .opening => "{\"traceEvents\":[".toList ++ commaJoin (x.items pid contents) ++ "]}".toList
  | .firstEvent | .firstThread => commaJoin (x.items pid contents) ++ "]}".toList
  | .otherEvents | .otherThreads => commaEach (x.items pid contents) ++ "]}".toList
  | .footer => "]}".toList
  | .dead => []

/-- The text still to be read. -/
def left (pid : Int) (contents : List (Nat × List Event)) (x : Exporter) : Str :=
  x.cache ++ x.pending pid contents

structure WF (pid : Int) (contents : List (Nat × List Event)) (x : Exporter) : Prop where
  holds : x.buffer.Holds contents
  texts : ∀ p ∈ flatEvents contents, ∃ s, p.1.toJson pid (BitVec.ofNat 32 p.2) = .ok s
  normal : x.it.Normal contents
  sub : ∀ p ∈ x.it.rest contents, p ∈ flatEvents contents
  threads : x.state = .firstThread ∨ x.state = .otherThreads → x.tit ≠ []
  events : x.state = .firstEvent ∨ x.state = .otherEvents → x.tit = [] ∧ x.it.rest contents ≠ []
  footer : x.state = .footer → x.tit = [] ∧ x.it.rest contents = []

variable {pid : Int} {contents : List (Nat × List Event)}

theorem atEnd_eq {x : Exporter} (h : WF pid contents x) :
    x.atEnd = .ok (decide (x.it.rest contents = [])) := by
  have hfin : x.buffer.end = .ok ⟨x.buffer.chunkCount, x.buffer.chunkCount, (x.buffer.chunkCount, 0)⟩ := by
    simp [Buffer.end, EventIter.make, EventIter.seek]
  unfold atEnd
  rw [hfin]
  simp only [Res.bind_ok]
  congr 1
  have hn := Normal.rest_nil_iff h.normal
  have hc := h.holds.count
  have he := h.normal.1
  by_cases hp : x.it.parent = contents.length
  · rw [decide_eq_true (hn.2 hp)]
    unfold EventIter.eq
    rw [if_pos ⟨by omega, by simp only; omega⟩]
  · rw [decide_eq_false (fun h => hp (hn.1 h))]
    unfold EventIter.eq
    rw [if_neg (by omega)]
    simp only [decide_eq_false_iff_not]
    omega

theorem event_text_ne {e : Event} {tid : BitVec 32} {s : Str} (h : e.toJson pid tid = .ok s) :
    ∃ t, s = '{' :: t := by
  unfold Event.toJson at h
  cases ht : e.typeToJson <;> rw [ht] at h <;> simp only [Res.bind_ok, Res.bind_throw, Res.bind_ub] at h
  · cases ha : argsLoop 0 [(e.tpi.argNames.1, e.args.1, e.tpi.argTypes.1),
      (e.tpi.argNames.2, e.args.2, e.tpi.argTypes.2)] <;> rw [ha] at h <;>
      simp only [Res.bind_ok, Res.bind_throw, Res.bind_ub] at h
    · cases h; exact ⟨_, rfl⟩
    · cases h
    · cases h
  · cases h
  · cases h

theorem thread_text_ne (a : Nat × Str) : ∃ t, threadAssociationToString pid a = '{' :: t := by
  unfold threadAssociationToString formatString
  exact ⟨_, by
    show cstr ('{' :: _) = _
    rw [cstr_cons, if_neg (by decide)]⟩

/-- What `addEvent` does. -/
theorem addEvent_spec {x : Exporter} (h : WF pid contents x) (ht : x.tit = [])
    (hr : x.it.rest contents ≠ []) :
    ∃ x' t l, x.addEvent pid = .ok x' ∧ WF pid contents x' ∧
      x.items pid contents = t :: l ∧ x'.cache = x.cache ++ t ∧ t ≠ [] ∧
      x'.pending pid contents = commaEach l ++ "]}".toList ∧ x'.state ≠ .dead := by
  obtain ⟨⟨e, tid⟩, r, hrest⟩ := List.exists_cons_of_ne_nil hr
  obtain ⟨hd, ⟨c, hc, htid⟩, it', hnext, hnorm, hrest'⟩ := Normal.step h.holds h.normal hrest
  obtain ⟨s, hs⟩ := h.texts (e, tid) (h.sub _ (by rw [hrest]; simp))
  simp only at hs
  let x1 : Exporter := { x with it := it', cache := x.cache ++ s, state := .otherEvents }
  have hitems : x.items pid contents = eventText pid (e, tid) :: r.map (eventText pid) := by
    simp [items, ht, hrest]
  have het : eventText pid (e, tid) = s := by simp [eventText, hs]
  obtain ⟨s', hs'⟩ := event_text_ne hs
  by_cases hr0 : r = []
  · -- last event
    have hwf : WF pid contents { x1 with state := .footer } :=
      { holds := h.holds, texts := h.texts, normal := hnorm,
        sub := by intro p hp; exact h.sub p (by rw [hrest]; simp only [x1] at hp; rw [hrest'] at hp; simp [hp]),
        threads := by simp, events := by simp,
        footer := fun _ => ⟨ht, by simp only [x1]; rw [hrest', hr0]⟩ }
    have hat : x1.atEnd = .ok true := by
      have := atEnd_eq hwf
      simp only [x1] at this
      rw [hrest', hr0] at this
      exact this
    refine ⟨{ x1 with state := .footer }, s, [], ?_, hwf, by rw [hitems, het, hr0]; rfl, rfl,
      by simp [hs'], by simp [pending, commaEach], by simp⟩
    simp only [addEvent, hd, hc, hnext, htid, hs, Res.bind_ok]
    show (do let fin ← x1.atEnd; _) = _
    rw [hat]; rfl
  · have hwf : WF pid contents x1 :=
      { holds := h.holds, texts := h.texts, normal := hnorm,
        sub := by intro p hp; exact h.sub p (by rw [hrest]; simp only [x1] at hp; rw [hrest'] at hp; simp [hp]),
        threads := by simp [x1], events := fun _ => ⟨ht, by simp only [x1]; rw [hrest']; exact hr0⟩,
        footer := by simp [x1] }
    have hat : x1.atEnd = .ok false := by
      have := atEnd_eq hwf
      simp only [x1] at this
      rw [hrest', decide_eq_false hr0] at this
      exact this
    refine ⟨x1, s, r.map (eventText pid), ?_, hwf, by rw [hitems, het], rfl, by simp [hs'], ?_, by simp [x1]⟩
    · simp only [addEvent, hd, hc, hnext, htid, hs, Res.bind_ok]
      show (do let fin ← x1.atEnd; _) = _
      rw [hat]; rfl
    · simp [pending, x1, items, ht, hrest']

/-- What `addThread` does. -/
theorem addThread_spec {x : Exporter} (h : WF pid contents x) (ht : x.tit ≠ []) :
    ∃ x' t l, x.addThread pid = .ok x' ∧ WF pid contents x' ∧
      x.items pid contents = t :: l ∧ x'.cache = x.cache ++ t ∧ t ≠ [] ∧
      x'.pending pid contents = commaEach l ++ "]}".toList ∧ x'.state ≠ .dead := by
  obtain ⟨a, rest, hrest⟩ := List.exists_cons_of_ne_nil ht
  obtain ⟨s', hs'⟩ := thread_text_ne (pid := pid) a
  let x1 : Exporter := { x with tit := rest, cache := x.cache ++ threadAssociationToString pid a,
                                state := .otherThreads }
  have hitems : x.items pid contents = threadAssociationToString pid a ::
      (rest.map (threadAssociationToString pid) ++ (x.it.rest contents).map (eventText pid)) := by
    simp [items, hrest]
  by_cases hr0 : rest = []
  · by_cases he : x.it.rest contents = []
    · have hwf : WF pid contents { x1 with state := .footer } :=
        { holds := h.holds, texts := h.texts, normal := h.normal, sub := h.sub,
          threads := by simp, events := by simp, footer := fun _ => ⟨hr0, he⟩ }
      have hat : x1.atEnd = .ok true := by
        have := atEnd_eq hwf
        rw [show ({ x1 with state := .footer } : Exporter).it.rest contents = [] from he] at this
        exact this
      refine ⟨{ x1 with state := .footer }, _, _, ?_, hwf, hitems, rfl, by simp [hs'],
        by simp [pending, commaEach, hr0, he], by simp⟩
      simp only [addThread, hrest]
      rw [if_pos hr0]
      show (do let fin ← x1.atEnd; _) = _
      rw [hat]; rfl
    · have hwf : WF pid contents { x1 with state := .otherEvents } :=
        { holds := h.holds, texts := h.texts, normal := h.normal, sub := h.sub,
          threads := by simp, events := fun _ => ⟨hr0, he⟩, footer := by simp }
      have hat : x1.atEnd = .ok false := by
        have := atEnd_eq hwf
        rw [decide_eq_false (show ¬ ({ x1 with state := .otherEvents } : Exporter).it.rest contents = []
          from he)] at this
        exact this
      refine ⟨{ x1 with state := .otherEvents }, _, _, ?_, hwf, hitems, rfl, by simp [hs'],
        by simp [pending, x1, items, hr0], by simp⟩
      simp only [addThread, hrest]
      rw [if_pos hr0]
      show (do let fin ← x1.atEnd; _) = _
      rw [hat]; rfl
  · have hwf : WF pid contents x1 :=
      { holds := h.holds, texts := h.texts, normal := h.normal, sub := h.sub,
        threads := fun _ => hr0, events := by simp [x1], footer := by simp [x1] }
    refine ⟨x1, _, _, ?_, hwf, hitems, rfl, by simp [hs'], by simp [pending, x1, items], by simp [x1]⟩
    simp only [addThread, hrest]
    rw [if_neg hr0]

/-- One round of the `switch`, with an empty cache. -/
theorem fill_spec {x : Exporter} (h : WF pid contents x) (hc : x.cache = []) (hd : x.state ≠ .dead) :
    ∃ x', x.fill pid = .ok x' ∧ WF pid contents x' ∧
      x'.left pid contents = x.left pid contents ∧ x'.cache ≠ [] ∧
      (x'.state = .dead → (x'.left pid contents).length = 2) := by
  unfold fill
  cases hs : x.state
  case dead => exact absurd hs hd
  case opening =>
    let x1 : Exporter := { x with cache := "{\"traceEvents\":[".toList }
    have hpend : x.left pid contents = "{\"traceEvents\":[".toList ++
        commaJoin (x.items pid contents) ++ "]}".toList := by
      simp [left, pending, hs, hc]
    by_cases ht : x.tit = []
    · by_cases he : x.it.rest contents = []
      · have hwf : WF pid contents { x1 with state := .footer } :=
          { holds := h.holds, texts := h.texts, normal := h.normal, sub := h.sub,
            threads := by simp, events := by simp, footer := fun _ => ⟨ht, he⟩ }
        have hat : x1.atEnd = .ok true := by
          have := atEnd_eq hwf
          rw [show ({ x1 with state := .footer } : Exporter).it.rest contents = [] from he] at this
          exact this
        refine ⟨{ x1 with state := .footer }, ?_, hwf, ?_, by simp [x1], by simp⟩
        · simp only [ht, ne_eq, not_true_eq_false, if_false]
          show (do let fin ← x1.atEnd; _) = _
          rw [hat]; simp [x1, ht]
        · rw [hpend]; simp [left, pending, x1, items, ht, he, commaJoin]
      · have hwf : WF pid contents { x1 with state := .firstEvent } :=
          { holds := h.holds, texts := h.texts, normal := h.normal, sub := h.sub,
            threads := by simp, events := fun _ => ⟨ht, he⟩, footer := by simp }
        have hat : x1.atEnd = .ok false := by
          have := atEnd_eq hwf
          rw [decide_eq_false (show ¬ ({ x1 with state := .firstEvent } : Exporter).it.rest contents = []
            from he)] at this
          exact this
        refine ⟨{ x1 with state := .firstEvent }, ?_, hwf, ?_, by simp [x1], by simp⟩
        · simp only [ht, ne_eq, not_true_eq_false, if_false]
          show (do let fin ← x1.atEnd; _) = _
          rw [hat]; simp [x1, ht]
        · rw [hpend]; simp [left, pending, x1, items]
    · have hwf : WF pid contents { x1 with state := .firstThread } :=
        { holds := h.holds, texts := h.texts, normal := h.normal, sub := h.sub,
          threads := fun _ => ht, events := by simp, footer := by simp }
      refine ⟨{ x1 with state := .firstThread }, by simp [ht, x1], hwf, ?_, by simp [x1], by simp⟩
      rw [hpend]; simp [left, pending, x1, items]
  case firstEvent =>
    obtain ⟨h1, h2⟩ := h.events (Or.inl hs)
    obtain ⟨x', t, l, e1, e2, e3, e4, e5, e6, e7⟩ := addEvent_spec h h1 h2
    refine ⟨x', e1, e2, ?_, ?_, fun hd => absurd hd e7⟩
    · rw [left, e4, e6, hc, left, hc]
      simp only [List.nil_append, pending, hs, e3, commaJoin_cons, List.append_assoc]
    · rw [e4, hc]; simpa using e5
  case otherEvents =>
    obtain ⟨h1, h2⟩ := h.events (Or.inr hs)
    have hwf : WF pid contents { x with cache := x.cache ++ ",".toList } :=
      { holds := h.holds, texts := h.texts, normal := h.normal, sub := h.sub,
        threads := h.threads, events := h.events, footer := h.footer }
    obtain ⟨x', t, l, e1, e2, e3, e4, e5, e6, e7⟩ := addEvent_spec hwf h1 h2
    have e3' : x.items pid contents = t :: l := e3
    refine ⟨x', e1, e2, ?_, ?_, fun hd => absurd hd e7⟩
    · rw [left, e4, e6, hc, left, hc]
      simp [pending, hs, e3', commaEach]
    · rw [e4]; simp
  case firstThread =>
    have h1 := h.threads (Or.inl hs)
    obtain ⟨x', t, l, e1, e2, e3, e4, e5, e6, e7⟩ := addThread_spec h h1
    refine ⟨x', e1, e2, ?_, ?_, fun hd => absurd hd e7⟩
    · rw [left, e4, e6, hc, left, hc]
      simp only [List.nil_append, pending, hs, e3, commaJoin_cons, List.append_assoc]
    · rw [e4, hc]; simpa using e5
  case otherThreads =>
    have h1 := h.threads (Or.inr hs)
    have hwf : WF pid contents { x with cache := x.cache ++ ",".toList } :=
      { holds := h.holds, texts := h.texts, normal := h.normal, sub := h.sub,
        threads := h.threads, events := h.events, footer := h.footer }
    obtain ⟨x', t, l, e1, e2, e3, e4, e5, e6, e7⟩ := addThread_spec hwf h1
    have e3' : x.items pid contents = t :: l := e3
    refine ⟨x', e1, e2, ?_, ?_, fun hd => absurd hd e7⟩
    · rw [left, e4, e6, hc, left, hc]
      simp [pending, hs, e3', commaEach]
    · rw [e4]; simp
  case footer =>
    refine ⟨_, rfl, ?_, ?_, by simp, ?_⟩
    · exact { holds := h.holds, texts := h.texts, normal := h.normal, sub := h.sub,
              threads := by simp, events := by simp, footer := by simp }
    · simp [left, pending, hs, hc]
    · simp [left, pending]

theorem two_le_pending {x : Exporter} (hd : x.state ≠ .dead) :
    2 ≤ (x.pending pid contents).length := by
  unfold pending
  cases hs : x.state <;> simp only [List.length_append]
  case dead => exact absurd hs hd
  case footer => decide
  all_goals
    have : "]}".toList.length = 2 := by decide
    omega

theorem readLoop_spec (fuel : Nat) (x : Exporter) (room : Nat) (out : Str)
    (h : WF pid contents x)
    (hfuel : room + 1 + (if x.cache = [] then 1 else 0) ≤ fuel) :
    ∃ x', readLoop pid fuel x room out = .ok (out ++ (x.left pid contents).take room, x') ∧
      WF pid contents x' ∧ x'.left pid contents = (x.left pid contents).drop room ∧
      (x.state = .dead → x'.state = .dead) ∧
      (x'.state = .dead → x.state = .dead ∨ (x'.left pid contents).length ≤ 1) := by
  induction fuel generalizing x room out with
  | zero => split at hfuel <;> omega
  | succ fuel ih =>
    rw [readLoop]
    by_cases hexit : room = 0 ∨ (x.state = .dead ∧ x.cache = [])
    · rw [if_pos hexit]
      refine ⟨x, ?_, h, ?_, id, Or.inl⟩
      · rcases hexit with rfl | ⟨h1, h2⟩
        · simp
        · simp [left, pending, h1, h2]
      · rcases hexit with rfl | ⟨h1, h2⟩
        · simp
        · simp [left, pending, h1, h2]
    rw [if_neg hexit]
    have hroom : room ≠ 0 := fun h => hexit (Or.inl h)
    by_cases hc : x.cache = []
    · rw [if_neg (by simp [hc])]
      have hd : x.state ≠ .dead := fun h => hexit (Or.inr ⟨h, hc⟩)
      obtain ⟨x1, e1, e2, e3, e4, e5⟩ := fill_spec h hc hd
      rw [e1]
      simp only [Res.bind_ok]
      rw [if_pos hc] at hfuel
      obtain ⟨x', f1, f2, f3, f4, f5⟩ := ih x1 room out e2 (by rw [if_neg e4]; omega)
      refine ⟨x', by rw [f1, e3], f2, by rw [f3, e3], fun h => absurd h hd, ?_⟩
      intro hdead
      right
      rcases f5 hdead with h5 | h5
      · rw [f3, List.length_drop, e5 h5]; omega
      · exact h5
    · rw [if_pos hc]
      rw [if_neg hc] at hfuel
      simp only
      by_cases hle : room ≤ x.cache.length
      · have hlen : (x.cache.take room).length = room := by simp [hle]
        rw [hlen, if_pos (by omega)]
        refine ⟨{ x with cache := x.cache.drop room }, ?_, ?_, ?_, id, Or.inl⟩
        · simp only [left]
          rw [List.take_append_of_le_length hle]
        · exact { holds := h.holds, texts := h.texts, normal := h.normal, sub := h.sub,
                  threads := h.threads, events := h.events, footer := h.footer }
        · simp only [left]
          rw [List.drop_append_of_le_length hle]; rfl
      · have hlt : x.cache.length < room := by omega
        have htake : x.cache.take room = x.cache := List.take_of_length_le (by omega)
        have hpos : 0 < x.cache.length := List.length_pos_iff.2 hc
        rw [htake, if_neg (by omega), List.drop_length]
        have hwf : WF pid contents { x with cache := [] } :=
          { holds := h.holds, texts := h.texts, normal := h.normal, sub := h.sub,
            threads := h.threads, events := h.events, footer := h.footer }
        have hleft : x.left pid contents = x.cache ++ ({ x with cache := [] } : Exporter).left pid contents := by
          simp [left, pending, items]
        by_cases hd : x.state = .dead
        · have hf : ({ x with cache := [] } : Exporter).fill pid = .ok { x with cache := [] } := by
            simp [fill, hd]
          rw [hf]
          simp only [Res.bind_ok]
          obtain ⟨f, rfl⟩ : ∃ f, fuel = f + 1 := ⟨fuel - 1, by omega⟩
          have hempty : ({ x with cache := [] } : Exporter).left pid contents = [] := by
            simp [left, pending, hd]
          refine ⟨{ x with cache := [] }, ?_, hwf, ?_, fun _ => hd, fun _ => Or.inl hd⟩
          · rw [readLoop, if_pos (Or.inr ⟨hd, rfl⟩), hleft, hempty, List.append_nil, htake]
          · rw [hleft, hempty, List.append_nil, List.drop_eq_nil_of_le (show x.cache.length ≤ room by omega)]
        · obtain ⟨x1, e1, e2, e3, e4, e5⟩ := fill_spec hwf rfl hd
          rw [e1]
          simp only [Res.bind_ok]
          obtain ⟨x', f1, f2, f3, f4, f5⟩ := ih x1 (room - x.cache.length) (out ++ x.cache) e2
            (by rw [if_neg e4]; omega)
          refine ⟨x', ?_, f2, ?_, fun h => absurd h hd, ?_⟩
          · rw [f1, e3, hleft, List.take_append, htake, List.append_assoc]
          · rw [f3, e3, hleft, List.drop_append,
              List.drop_eq_nil_of_le (show x.cache.length ≤ room by omega), List.nil_append]
          · intro hdead
            right
            rcases f5 hdead with h5 | h5
            · rw [f3, List.length_drop, e5 h5]; omega
            · exact h5

/-- One `read(n)`. -/
theorem read_spec {x : Exporter} (h : WF pid contents x) (n : Nat) :
    ∃ x', x.read pid n = .ok ((x.left pid contents).take n, x') ∧
      WF pid contents x' ∧ x'.left pid contents = (x.left pid contents).drop n ∧
      (x.state = .dead → x'.state = .dead) ∧
      (x'.state = .dead → x.state = .dead ∨ (x'.left pid contents).length ≤ 1) ∧
      (x'.state ≠ .dead → 2 ≤ (x'.left pid contents).length) := by
  have := readLoop_spec (n + 2) x n [] h (by split <;> omega)
  obtain ⟨x', h1, h2, h3, h4, h5⟩ := this
  refine ⟨x', by rw [read, h1]; rfl, h2, h3, h4, h5, ?_⟩
  intro hd
  have := two_le_pending (pid := pid) (contents := contents) hd
  simp only [left, List.length_append]; omega

theorem make_spec {ctx : TraceContext} (h : ctx.Holds pid contents) :
    ∃ x, make ctx = .ok x ∧ WF pid contents x ∧ x.state = .opening ∧
      x.left pid contents = document pid ctx.threadNames (flatEvents contents) := by
  obtain ⟨b, hb, hh⟩ := h.buffer
  obtain ⟨it, hit, hn, hr⟩ := begin_spec hh
  refine ⟨{ buffer := b, it := it, tit := ctx.threadNames, state := .opening, cache := [] },
    by simp only [make, hb, hit, Res.bind_ok], ?_, rfl, ?_⟩
  · exact { holds := hh, texts := h.texts, normal := hn, sub := by intro p hp; rw [hr] at hp; exact hp,
            threads := by simp, events := by simp, footer := by simp }
  · unfold left pending items document
    rw [← hr]
    rfl

/-- `read()`: all of the text, or all but its last byte. -/
theorem readAllLoop_spec (fuel : Nat) (x : Exporter) (out : Str) (h : WF pid contents x)
    (hd : x.state ≠ .dead) (hfuel : (x.left pid contents).length ≤ fuel) :
    ∃ o n x', readAllLoop pid fuel x out = some (.ok (o, n, x')) ∧ x'.state = .dead ∧ n ≤ 4096 ∧
      o.length ≥ 4096 ∧
      o.take (o.length - (4096 - n)) = out ++ (x.left pid contents).take
        (if (x.left pid contents).length % 4096 = 1 then (x.left pid contents).length - 1
          else (x.left pid contents).length) := by
  induction fuel generalizing x out with
  | zero =>
    have := two_le_pending (pid := pid) (contents := contents) hd
    simp only [left, List.length_append] at hfuel; omega
  | succ fuel ih =>
    have hp := two_le_pending (pid := pid) (contents := contents) hd
    have hl : 2 ≤ (x.left pid contents).length := by
      simp only [left, List.length_append]; omega
    rw [readAllLoop]
    obtain ⟨x', e1, e2, e3, e4, e5, e6⟩ := read_spec h 4096
    rw [e1]
    simp only
    by_cases hdead : x'.state = .dead
    · rw [if_pos (by simp [done, hdead])]
      refine ⟨_, _, x', rfl, hdead, by rw [List.length_take]; omega,
        by simp only [List.length_append, List.length_replicate, List.length_take]; omega, ?_⟩
      have h5 := (e5 hdead).resolve_left hd
      rw [e3, List.length_drop] at h5
      generalize hL : x.left pid contents = L at *
      have hg : (L.take 4096).length ≤ 4096 := by rw [List.length_take]; omega
      rw [List.length_append, List.length_append, List.length_replicate, List.take_append_of_le_length
        (by simp only [List.length_append]; omega), List.take_of_length_le
        (by simp only [List.length_append]; omega)]
      congr 1
      split
      · have : L.length = 4097 := by omega
        rw [this]
      · rw [List.take_of_length_le (by omega), List.take_of_length_le (by omega)]
    · rw [if_neg (by simp [done, hdead])]
      have h6 := e6 hdead
      obtain ⟨o, n, x'', f1, f2, f3, f4, f5⟩ := ih x' (out ++ (x.left pid contents).take 4096 ++
        List.replicate (4096 - ((x.left pid contents).take 4096).length) '\x00') e2 hdead
        (by rw [e3, List.length_drop]; omega)
      refine ⟨o, n, x'', f1, f2, f3, f4, ?_⟩
      rw [f5, e3]
      rw [e3, List.length_drop] at h6
      generalize x.left pid contents = L at *
      have hg : (L.take 4096).length = 4096 := by rw [List.length_take]; omega
      rw [hg, List.length_drop]
      simp only [Nat.sub_self, List.replicate_zero, List.append_nil, List.append_assoc]
      congr 1
      have hmod : (L.length - 4096) % 4096 = L.length % 4096 := by omega
      rw [hmod]
      split
      · have e : L.length - 1 = 4096 + (L.length - 4096 - 1) := by clear * - h6; omega
        conv_rhs => rw [e]
        rw [List.take_add]
      · have e : L.length = 4096 + (L.length - 4096) := by clear * - h6; omega
        conv_rhs => rw [e]
        rw [List.take_add]

/-- The save loop writes everything or reports failure. -/
theorem saveLoop_spec (env : FileEnv) (fuel : Nat) (x : Exporter) (n : Nat) (w : Str)
    (h : WF pid contents x) (hfuel : (x.left pid contents).length < fuel) :
    ∃ r w', saveLoop pid env fuel x n w = some (r, w') ∧
      ((r = .ok () ∧ w' = w ++ x.left pid contents) ∨
        (r = .throw .runtimeError ∧ w' <+: w ++ x.left pid contents ∧
          ∃ m s, env.accepts m s < s.length)) := by
  induction fuel generalizing x n w with
  | zero => omega
  | succ fuel ih =>
    rw [saveLoop]
    obtain ⟨x', e1, e2, e3, -, -, -⟩ := read_spec h 4096
    rw [e1]
    simp only
    generalize hL : x.left pid contents = L at *
    by_cases h0 : (L.take 4096).length = 0
    · rw [if_pos h0]
      have : L = [] := by
        rw [List.length_take] at h0
        exact List.length_eq_zero_iff.1 (by omega)
      exact ⟨_, _, rfl, Or.inl ⟨rfl, by simp [this]⟩⟩
    rw [if_neg h0]
    generalize hg : L.take 4096 = g at *
    have hgL : g <+: L := by rw [← hg]; exact List.take_prefix _ _
    by_cases hr : env.accepts n g < g.length
    · have hmin : min (env.accepts n g) g.length = env.accepts n g := by omega
      rw [hmin, if_pos (by omega)]
      refine ⟨_, _, rfl, Or.inr ⟨rfl, ?_, n, g, hr⟩⟩
      exact List.prefix_append_right_inj _ |>.2 ((List.take_prefix _ _).trans hgL)
    · have hmin : min (env.accepts n g) g.length = g.length := by omega
      rw [hmin, if_neg (by simp), List.take_length]
      have hlen : L.length - 4096 < L.length := by rw [← hg, List.length_take] at h0; omega
      obtain ⟨r, w', f1, f2⟩ := ih x' (n + 1) (w ++ g) e2 (by rw [e3, List.length_drop]; omega)
      refine ⟨r, w', f1, ?_⟩
      have : w ++ L = w ++ g ++ x'.left pid contents := by
        rw [e3, ← hg, List.append_assoc, List.take_append_drop]
      rw [this]; exact f2

end Exporter

/-! ### Thread names -/

theorem fmtInt_free (i : Int) : '\x00' ∉ fmtInt i := by
  have key : ∀ n : Nat, '\x00' ∉ Nat.toDigits 10 n := fun n h =>
    absurd ((digit_iff _).2 (isDigit_toDigits h)) (by decide)
  unfold fmtInt
  split
  · intro h
    rcases List.mem_cons.1 h with h | h
    · exact absurd h (by decide)
    · exact key _ h
  · exact key _

theorem threadText_eq (pid : Int) (a : Nat × Str) : threadAssociationToString pid a =
    "{\"name\":\"thread_name\",\"ph\":\"M\",\"pid\":".toList ++ fmtInt pid
    ++ ",\"tid\":".toList ++ fmtInt (BitVec.ofNat 32 a.1).toInt
    ++ ",\"args\":{\"name\":\"".toList ++ cstr a.2 ++ "\"}}".toList := by
  unfold threadAssociationToString formatString
  apply cstr_of_free
  simp only [List.mem_append, not_or]
  exact ⟨⟨⟨⟨⟨⟨by decide, fmtInt_free _⟩, by decide⟩, fmtInt_free _⟩, by decide⟩, cstr_free _⟩, by decide⟩

/-! ### Path expansion -/

theorem findFrom_shift (pat s : Str) (i : Nat) :
    findFrom pat (i + 1) s = (findFrom pat i s).map (· + 1) := by
  induction s generalizing i with
  | nil => unfold findFrom; split <;> simp
  | cons c s ih =>
    unfold findFrom
    split
    · simp
    · rw [ih]

theorem stringReplace_nil {pat : Str} (u : Str) (h : pat ≠ []) : stringReplace [] pat u = [] := by
  simp [stringReplace, h, findFrom]

theorem stringReplace_cons {pat : Str} (u : Str) (c : Char) (s : Str) (h : pat ≠ []) :
    stringReplace (c :: s) pat u =
      if pat.isPrefixOf (c :: s) then u ++ (c :: s).drop pat.length
      else c :: stringReplace s pat u := by
  unfold stringReplace
  rw [if_neg h, if_neg h]
  rw [findFrom]
  by_cases hp : pat.isPrefixOf (c :: s) = true
  · rw [if_pos hp, if_pos hp]; simp
  · rw [if_neg hp, if_neg hp, findFrom_shift]
    cases findFrom pat 0 s with
    | none => rfl
    | some n =>
      simp only [Option.map_some, List.take_succ_cons, List.cons_append]
      rw [show n + 1 + pat.length = (n + pat.length) + 1 by omega, List.drop_succ_cons]

theorem stringReplace_skip (a : Char) (p u s : Str) (hp : '%' ∉ p) :
    stringReplace (p ++ s) ['%', a] u = p ++ stringReplace s ['%', a] u := by
  induction p with
  | nil => rfl
  | cons c p ih =>
    have hc : c ≠ '%' := fun h => hp (by simp [h])
    rw [List.cons_append, stringReplace_cons _ _ _ (by simp), ih (fun h => hp (by simp [h]))]
    rw [if_neg (by simp [List.isPrefixOf]; intro h; exact absurd h.symm hc)]
    rfl

theorem expand_false_false (p d s : Str) : expand p d false false s = s := by
  induction s with
  | nil => simp [expand]
  | cons c s ih => cases s <;> simp_all [expand]

theorem expand_p (p d s : Str) : expand p d true false s = stringReplace s ['%', 'p'] p := by
  induction s with
  | nil => simp [expand, stringReplace_nil]
  | cons c s ih =>
    rw [stringReplace_cons _ _ _ (by simp)]
    cases s with
    | nil => simp [expand, List.isPrefixOf, stringReplace_nil]
    | cons c' r =>
      rw [expand]
      by_cases h : c = '%' ∧ c' = 'p'
      · obtain ⟨rfl, rfl⟩ := h
        simp [List.isPrefixOf, expand_false_false]
      · rw [if_neg (by simpa using h), if_neg (by simp), ih, if_neg]
        simp only [List.isPrefixOf, Bool.and_true, Bool.and_eq_true, beq_iff_eq]
        rintro ⟨h1, h2⟩; exact h ⟨h1.symm, h2.symm⟩

theorem expand_d (p d s : Str) : expand p d false true s = stringReplace s ['%', 'd'] d := by
  induction s with
  | nil => simp [expand, stringReplace_nil]
  | cons c s ih =>
    rw [stringReplace_cons _ _ _ (by simp)]
    cases s with
    | nil => simp [expand, List.isPrefixOf, stringReplace_nil]
    | cons c' r =>
      rw [expand]
      by_cases h : c = '%' ∧ c' = 'd'
      · obtain ⟨rfl, rfl⟩ := h
        simp [List.isPrefixOf, expand_false_false]
      · rw [if_neg (by simp), if_neg (by simpa using h), ih, if_neg]
        simp only [List.isPrefixOf, Bool.and_true, Bool.and_eq_true, beq_iff_eq]
        rintro ⟨h1, h2⟩; exact h ⟨h1.symm, h2.symm⟩

theorem expand_both {p : Str} (d s : Str) (hp : '%' ∉ p) (hd : 'd' ∉ p) (hne : p ≠ []) :
    expand p d true true s = stringReplace (stringReplace s ['%', 'p'] p) ['%', 'd'] d := by
  induction hn : s.length using Nat.strongRecOn generalizing s with
  | ind n ih0 =>
  have ih : ∀ s', s'.length < s.length → expand p d true true s' =
      stringReplace (stringReplace s' ['%', 'p'] p) ['%', 'd'] d :=
    fun s' h => ih0 _ (hn ▸ h) s' rfl
  clear ih0 hn
  match s with
  | [] => simp [expand, stringReplace_nil]
  | [c] => simp [expand, stringReplace_cons, List.isPrefixOf, stringReplace_nil]
  | c :: c' :: r =>
    rw [expand]
    by_cases h1 : c = '%' ∧ c' = 'p'
    · obtain ⟨rfl, rfl⟩ := h1
      rw [if_pos (by simp), stringReplace_cons _ _ _ (by simp), if_pos (by simp [List.isPrefixOf]),
        stringReplace_skip _ _ _ _ hp, expand_d]
      rfl
    rw [if_neg (by simpa using h1)]
    have hnp : ¬ (['%', 'p'].isPrefixOf (c :: c' :: r) = true) := by
      simp only [List.isPrefixOf, Bool.and_true, Bool.and_eq_true, beq_iff_eq]
      rintro ⟨h, h'⟩; exact h1 ⟨h.symm, h'.symm⟩
    rw [stringReplace_cons _ _ _ (by simp), if_neg hnp]
    by_cases h2 : c = '%' ∧ c' = 'd'
    · obtain ⟨rfl, rfl⟩ := h2
      rw [if_pos (by simp), stringReplace_cons (s := r) _ _ (by simp), if_neg (by simp [List.isPrefixOf]),
        stringReplace_cons _ _ _ (by simp), if_pos (by simp [List.isPrefixOf]), expand_p]
      rfl
    · rw [if_neg (by simpa using h2), ih _ (by simp)]
      conv_rhs => rw [stringReplace_cons _ _ _ (by simp)]
      rw [if_neg]
      intro hpre
      -- the second character after replacing is not `d`
      rw [stringReplace_cons _ _ _ (by simp)] at hpre
      split at hpre
      · obtain ⟨a, p', rfl⟩ := List.exists_cons_of_ne_nil hne
        simp only [List.cons_append, List.isPrefixOf, Bool.and_true, Bool.and_eq_true, beq_iff_eq] at hpre
        exact hd (hpre.2 ▸ List.mem_cons_self ..)
      · simp only [List.isPrefixOf, Bool.and_true, Bool.and_eq_true, beq_iff_eq] at hpre
        exact h2 ⟨hpre.1.symm, hpre.2.symm⟩
end Phosphor
