import Verif.Model.ExportExn
import Verif.Props.Export
/-
Property C90: reading goes on after an exception.
-/
namespace Phosphor
open Json Exporter

namespace Exporter.Ex

variable {pid : Int} {contents : List (Nat × List Event)}

/-- What the exception at a place leaves of an exporter whose cache is empty. -/
inductive After (contents : List (Nat × List Event)) : Place → Exporter → Exporter → Prop
  | comma (x : Exporter) : x.state = .otherEvents ∨ x.state = .otherThreads → After contents .comma x x
  | renderFirst (x : Exporter) : x.state = .firstEvent ∨ x.state = .firstThread →
      After contents .render x x
  | renderOther (x : Exporter) : x.state = .otherEvents ∨ x.state = .otherThreads →
      After contents .render x { x with cache := [','] }
  | assign (x : Exporter) : x.state = .opening ∨ x.state = .footer → After contents .append x x
  | firstEvent (x : Exporter) (it : EventIter) : x.state = .firstEvent →
      it.Normal contents → it.rest contents = (x.it.rest contents).tail →
      After contents .append x { x with it }
  | otherEvent (x : Exporter) (it : EventIter) : x.state = .otherEvents →
      it.Normal contents → it.rest contents = (x.it.rest contents).tail →
      After contents .append x { x with it, cache := [','] }
  | firstThread (x : Exporter) : x.state = .firstThread →
      After contents .append x { x with tit := x.tit.tail }
  | otherThread (x : Exporter) : x.state = .otherThreads →
      After contents .append x { x with tit := x.tit.tail, cache := [','] }

theorem WF.cache {x : Exporter} (h : WF pid contents x) (c : Str) : WF pid contents { x with cache := c } :=
  { holds := h.holds, texts := h.texts, normal := h.normal, sub := h.sub,
    threads := h.threads, events := h.events, footer := h.footer }

theorem next_tail {x : Exporter} (h : WF pid contents x) (hr : x.it.rest contents ≠ []) :
    ∃ it, x.it.next x.buffer = .ok it ∧ it.Normal contents ∧
      it.rest contents = (x.it.rest contents).tail := by
  obtain ⟨⟨e, tid⟩, r, hrest⟩ := List.exists_cons_of_ne_nil hr
  obtain ⟨-, -, it', hnext, hnorm, hrest'⟩ := Normal.step h.holds h.normal hrest
  exact ⟨it', hnext, hnorm, by rw [hrest', hrest]; rfl⟩

/-- One round either does what it does without faults, or throws what the fault says. -/
theorem fill_cases {x : Exporter} (h : WF pid contents x) (hc : x.cache = []) (hd : x.state ≠ .dead)
    (f : Fault) :
    (∃ x', Exporter.fill pid x = .ok x' ∧ fill pid f x = (x', .ok ())) ∨
    (∃ p e x', f = some (p, e) ∧ fill pid f x = (x', .throw e) ∧ After contents p x x') := by
  obtain ⟨x0, hx0, -⟩ := fill_spec h hc hd
  cases hs : x.state with
  | dead => exact absurd hs hd
  | opening =>
    rcases f with - | ⟨_ | _ | _, e⟩
    · exact Or.inl ⟨x0, hx0, by simp only [fill, hs, hx0, orKeep]⟩
    · exact Or.inl ⟨x0, hx0, by simp only [fill, hs, hx0, orKeep]⟩
    · exact Or.inl ⟨x0, hx0, by simp only [fill, hs, hx0, orKeep]⟩
    · exact Or.inr ⟨_, e, x, rfl, by simp only [fill, hs], .assign x (Or.inl hs)⟩
  | footer =>
    rcases f with - | ⟨_ | _ | _, e⟩
    · exact Or.inl ⟨x0, hx0, by simp only [fill, hs, hx0, orKeep]⟩
    · exact Or.inl ⟨x0, hx0, by simp only [fill, hs, hx0, orKeep]⟩
    · exact Or.inl ⟨x0, hx0, by simp only [fill, hs, hx0, orKeep]⟩
    · exact Or.inr ⟨_, e, x, rfl, by simp only [fill, hs], .assign x (Or.inr hs)⟩
  | firstEvent =>
    obtain ⟨-, h2⟩ := h.events (Or.inl hs)
    obtain ⟨it, n1, n2, n3⟩ := next_tail h h2
    have hx1 : Exporter.addEvent pid x = .ok x0 := by
      have := hx0; simpa only [Exporter.fill, hs] using this
    rcases f with - | ⟨_ | _ | _, e⟩
    · exact Or.inl ⟨x0, hx0, by simp only [fill, hs, addEvent, hx1, orKeep]⟩
    · exact Or.inl ⟨x0, hx0, by simp only [fill, hs, addEvent, hx1, orKeep]⟩
    · exact Or.inr ⟨_, e, x, rfl, by simp only [fill, hs, addEvent], .renderFirst x (Or.inl hs)⟩
    · exact Or.inr ⟨_, e, { x with it }, rfl, by simp only [fill, hs, addEvent, n1],
        .firstEvent x it hs n2 n3⟩
  | otherEvents =>
    obtain ⟨-, h2⟩ := h.events (Or.inr hs)
    obtain ⟨it, n1, n2, n3⟩ := next_tail h h2
    have hx1 : Exporter.addEvent pid { x with cache := x.cache ++ ",".toList } = .ok x0 := by
      have := hx0; simpa only [Exporter.fill, hs] using this
    have hcc : x.cache ++ ",".toList = [','] := by rw [hc]; rfl
    rw [hcc, hs] at hx1
    rcases f with - | ⟨_ | _ | _, e⟩
    · exact Or.inl ⟨x0, hx0, by simp only [fill, hs, addEvent, hcc, hx1, orKeep]⟩
    · exact Or.inr ⟨_, e, x, rfl, by simp only [fill, hs], .comma x (Or.inl hs)⟩
    · exact Or.inr ⟨_, e, _, rfl, by simp only [fill, hs, addEvent, hcc], .renderOther x (Or.inl hs)⟩
    · exact Or.inr ⟨_, e, { x with it, cache := [','] }, rfl,
        by simp only [fill, hs, addEvent, n1, hcc], .otherEvent x it hs n2 n3⟩
  | firstThread =>
    have h1 := h.threads (Or.inl hs)
    obtain ⟨a, r, hr⟩ := List.exists_cons_of_ne_nil h1
    have hx1 : Exporter.addThread pid x = .ok x0 := by
      have := hx0; simpa only [Exporter.fill, hs] using this
    rcases f with - | ⟨_ | _ | _, e⟩
    · exact Or.inl ⟨x0, hx0, by simp only [fill, hs, addThread, hr, hx1, orKeep]⟩
    · exact Or.inl ⟨x0, hx0, by simp only [fill, hs, addThread, hr, hx1, orKeep]⟩
    · exact Or.inr ⟨_, e, x, rfl, by simp only [fill, hs, addThread, hr], .renderFirst x (Or.inr hs)⟩
    · refine Or.inr ⟨_, e, { x with tit := x.tit.tail }, rfl, ?_, .firstThread x hs⟩
      simp only [fill, hs, addThread, hr, List.tail_cons]
  | otherThreads =>
    have h1 := h.threads (Or.inr hs)
    obtain ⟨a, r, hr⟩ := List.exists_cons_of_ne_nil h1
    have hx1 : Exporter.addThread pid { x with cache := x.cache ++ ",".toList } = .ok x0 := by
      have := hx0; simpa only [Exporter.fill, hs] using this
    have hcc : x.cache ++ ",".toList = [','] := by rw [hc]; rfl
    rw [hcc, hs, hr] at hx1
    rcases f with - | ⟨_ | _ | _, e⟩
    · exact Or.inl ⟨x0, hx0, by simp only [fill, hs, addThread, hr, hcc, hx1, orKeep]⟩
    · exact Or.inr ⟨_, e, x, rfl, by simp only [fill, hs], .comma x (Or.inr hs)⟩
    · exact Or.inr ⟨_, e, _, rfl, by simp only [fill, hs, addThread, hr, hcc],
        .renderOther x (Or.inr hs)⟩
    · refine Or.inr ⟨_, e, { x with tit := x.tit.tail, cache := [','] }, rfl, ?_, .otherThread x hs⟩
      simp only [fill, hs, addThread, hr, hcc, List.tail_cons]

/-- The loop, from any exporter. -/
theorem loop_spec (fail : Nat → Fault) (fuel k : Nat) (x : Exporter) (room : Nat) (out : Str)
    (h : WF pid contents x) (hfuel : room + 1 + (if x.cache = [] then 1 else 0) ≤ fuel) :
    (∃ x', readLoop pid fail fuel k x room out =
        (x', out ++ (x.left pid contents).take room, .ok ()) ∧
      WF pid contents x' ∧ x'.left pid contents = (x.left pid contents).drop room) ∨
    (∃ m j p e y x', m < room ∧ fail j = some (p, e) ∧
      readLoop pid fail fuel k x room out = (x', out ++ (x.left pid contents).take m, .throw e) ∧
      WF pid contents y ∧ y.cache = [] ∧ y.left pid contents = (x.left pid contents).drop m ∧
      m ≤ (x.left pid contents).length ∧ After contents p y x') := by
  induction fuel generalizing k x room out with
  | zero => split at hfuel <;> omega
  | succ fuel ih =>
    rw [readLoop]
    by_cases hexit : room = 0 ∨ (x.state = .dead ∧ x.cache = [])
    · rw [if_pos hexit]
      refine Or.inl ⟨x, ?_, h, ?_⟩
      · rcases hexit with rfl | ⟨h1, h2⟩
        · simp
        · simp [left, pending, h1, h2]
      · rcases hexit with rfl | ⟨h1, h2⟩
        · simp
        · simp [left, pending, h1, h2]
    rw [if_neg hexit]
    have hroom : room ≠ 0 := fun h => hexit (Or.inl h)
    simp only
    by_cases hle : room ≤ x.cache.length
    · have hlen : (x.cache.take room).length = room := by simp [hle]
      rw [hlen, if_pos (by omega)]
      refine Or.inl ⟨{ x with cache := x.cache.drop room }, ?_, WF.cache h _, ?_⟩
      · simp only [left]
        rw [List.take_append_of_le_length hle]
      · simp only [left]
        rw [List.drop_append_of_le_length hle]; rfl
    · have hlt : x.cache.length < room := by omega
      have htake : x.cache.take room = x.cache := List.take_of_length_le (by omega)
      rw [htake, if_neg (by omega), List.drop_length]
      have hwf : WF pid contents { x with cache := [] } := WF.cache h []
      have hleft : x.left pid contents =
          x.cache ++ ({ x with cache := [] } : Exporter).left pid contents := by
        simp [left, pending, items]
      by_cases hd : x.state = .dead
      · have hne : x.cache ≠ [] := fun hc => hexit (Or.inr ⟨hd, hc⟩)
        have hpos : 0 < x.cache.length := List.length_pos_iff.2 hne
        rw [if_neg hne] at hfuel
        have hf : fill pid (fail k) ({ x with cache := [] } : Exporter) = ({ x with cache := [] }, .ok ()) := by
          simp [fill, hd]
        rw [hf]
        obtain ⟨f, rfl⟩ : ∃ f, fuel = f + 1 := ⟨fuel - 1, by omega⟩
        have hempty : ({ x with cache := [] } : Exporter).left pid contents = [] := by
          simp [left, pending, hd]
        refine Or.inl ⟨{ x with cache := [] }, ?_, hwf, ?_⟩
        · simp only
          rw [readLoop, if_pos (Or.inr ⟨hd, rfl⟩), hleft, hempty, List.append_nil, htake]
        · rw [hleft, hempty, List.append_nil, List.drop_eq_nil_of_le (show x.cache.length ≤ room by omega)]
      · rcases fill_cases hwf rfl hd (fail k) with ⟨x1, g1, g2⟩ | ⟨p, e, x1, g1, g2, g3⟩
        · obtain ⟨x2, e1, e2, e3, e4, -⟩ := fill_spec hwf rfl hd
          rw [g1] at e1; cases e1
          rw [g2]
          simp only
          have hfu : room - x.cache.length + 1 + (if x1.cache = [] then 1 else 0) ≤ fuel := by
            rw [if_neg e4]
            split at hfuel
            · omega
            · rename_i hne
              have := List.length_pos_iff.2 hne
              omega
          rcases ih (k + 1) x1 (room - x.cache.length) (out ++ x.cache) e2 hfu with
            ⟨x', f1, f2, f3⟩ | ⟨m, j, p, e, y, x', f1, f2, f3, f4, f5, f6, f7, f8⟩
          · refine Or.inl ⟨x', ?_, f2, ?_⟩
            · rw [f1, e3, hleft, List.take_append, htake, List.append_assoc]
            · rw [f3, e3, hleft, List.drop_append,
                List.drop_eq_nil_of_le (show x.cache.length ≤ room by omega), List.nil_append]
          · refine Or.inr ⟨x.cache.length + m, j, p, e, y, x', by omega, f2, ?_, f4, f5, ?_, ?_, f8⟩
            · rw [f3, e3, hleft, List.take_length_add_append, List.append_assoc]
            · rw [f6, e3, hleft, List.drop_length_add_append]
            · rw [hleft, List.length_append, ← e3]; omega
        · rw [g2]
          simp only
          refine Or.inr ⟨x.cache.length, k, p, e, { x with cache := [] }, x1, hlt, g1, ?_, hwf, rfl, ?_,
            ?_, g3⟩
          · rw [hleft, List.take_left]
          · rw [hleft, List.drop_left]
          · rw [hleft, List.length_append]; omega

/-- Successive successful reads: what they returned, and the exporter afterwards. -/
inductive Reads (pid : Int) : Exporter → Str → Exporter → Prop
  | nil (x : Exporter) : Reads pid x [] x
  | cons {x y z : Exporter} {n : Nat} {s t : Str} :
      Exporter.read pid x n = .ok (s, y) → Reads pid y t z → Reads pid x (s ++ t) z

theorem Reads.spec {x y : Exporter} {s : Str} (r : Reads pid x s y) (h : WF pid contents x) :
    WF pid contents y ∧ x.left pid contents = s ++ y.left pid contents := by
  induction r with
  | nil x => exact ⟨h, rfl⟩
  | cons h1 _ ih =>
    obtain ⟨x', e1, e2, e3, -⟩ := read_spec h _
    rw [h1] at e1; cases e1
    obtain ⟨g1, g2⟩ := ih e2
    refine ⟨g1, ?_⟩
    rw [List.append_assoc, ← g2, e3, List.take_append_drop]

/-- What further reads return: the bytes of `R`, in pieces of any sizes. -/
def Continues (pid : Int) (x : Exporter) (R : Str) : Prop :=
  ∀ ns : List Nat, ∃ pieces, readMany pid x ns = .ok pieces ∧ pieces.flatten = R.take ns.sum

theorem WF.continues {x : Exporter} (h : WF pid contents x) :
    Continues pid x (x.left pid contents) := by
  intro ns
  obtain ⟨ps, f1, f2, f3⟩ := readMany_spec ns h
  exact ⟨ps, f1, pieces_flatten _ _ _ f2 f3⟩

/-- One read, possibly with exceptions, after any number of successful ones. -/
theorem read_cases {ctx : TraceContext} {x0 x x' : Exporter} {s out : Str} {n : Nat} {res : Res Unit}
    (fail : Nat → Fault) (h : ctx.Holds pid contents) (h0 : Exporter.make ctx = .ok x0)
    (hr : Reads pid x0 s x) (hx : read pid fail x n = (x', out, res)) :
    ∃ R, document pid ctx.threadNames (flatEvents contents) = s ++ out ++ R ∧
      ((res = .ok () ∧ WF pid contents x' ∧ x'.left pid contents = R ∧
          (out.length < n → R = [])) ∨
       ∃ p e y j, res = .throw e ∧ fail j = some (p, e) ∧ out.length < n ∧ WF pid contents y ∧
        y.cache = [] ∧ y.left pid contents = R ∧ After contents p y x') := by
  obtain ⟨x1, g1, g2, -, g4⟩ := make_spec h
  rw [h0] at g1; cases g1
  obtain ⟨w1, w2⟩ := hr.spec g2
  rw [g4] at w2
  rcases loop_spec fail (n + 2) 0 x n [] w1 (by split <;> omega) with
    ⟨x2, e1, e2, e3⟩ | ⟨m, j, p, e, y, x2, e1, e2, e3, e4, e5, e6, e7, e8⟩
  · rw [read, e1] at hx
    cases hx
    refine ⟨(x.left pid contents).drop n, ?_, Or.inl ⟨rfl, e2, e3, ?_⟩⟩
    · rw [w2, List.nil_append, List.append_assoc, List.take_append_drop]
    · intro hlt
      rw [List.nil_append, List.length_take] at hlt
      exact List.drop_eq_nil_of_le (by omega)
  · rw [read, e3] at hx
    cases hx
    refine ⟨(x.left pid contents).drop m, ?_, Or.inr ⟨p, e, y, j, rfl, e2, ?_, e4, e5, e6, e8⟩⟩
    · rw [w2, List.nil_append, List.append_assoc, List.take_append_drop]
    · rw [List.nil_append, List.length_take]; omega

theorem items_ne {y : Exporter} (h : WF pid contents y) (hs : y.state = .firstEvent ∨
    y.state = .firstThread ∨ y.state = .otherEvents ∨ y.state = .otherThreads) :
    ∃ t l, y.items pid contents = ('{' :: t) :: l := by
  have thr : y.tit ≠ [] → ∃ t l, y.items pid contents = ('{' :: t) :: l := by
    intro ht
    obtain ⟨a, r, hr⟩ := List.exists_cons_of_ne_nil ht
    obtain ⟨t, ht⟩ := thread_text_ne (pid := pid) a
    exact ⟨t, _, by rw [items, hr, List.map_cons, List.cons_append, ht]⟩
  have evt : y.tit = [] ∧ y.it.rest contents ≠ [] → ∃ t l, y.items pid contents = ('{' :: t) :: l := by
    rintro ⟨h1, h2⟩
    obtain ⟨⟨e, tid⟩, r, hr⟩ := List.exists_cons_of_ne_nil h2
    obtain ⟨s, hs⟩ := h.texts (e, tid) (h.sub _ (by rw [hr]; simp))
    obtain ⟨t, ht⟩ := event_text_ne hs
    exact ⟨t, _, by rw [items, h1, hr, List.map_nil, List.nil_append, List.map_cons, eventText, hs, ht]⟩
  rcases hs with hs | hs | hs | hs
  · exact evt (h.events (Or.inl hs))
  · exact thr (h.threads (Or.inl hs))
  · exact evt (h.events (Or.inr hs))
  · exact thr (h.threads (Or.inr hs))

/-! ### C90 Reading goes on after an exception -/

/-- Without exceptions `read` is the `read` of the other properties: it does not throw, and goes on
with the document. In particular an exception comes from a fault. -/
theorem C90_no_fault (fail : Nat → Fault) (ctx : TraceContext) (x0 x x' : Exporter) (s out : Str)
    (n : Nat) (res : Res Unit) (h : ctx.Holds pid contents) (h0 : Exporter.make ctx = .ok x0)
    (hr : Reads pid x0 s x) (hx : read pid fail x n = (x', out, res)) (hf : ∀ k, fail k = none) :
    res = .ok () ∧ ∃ R, document pid ctx.threadNames (flatEvents contents) = s ++ out ++ R ∧
      Continues pid x' R ∧ (out.length < n → R = []) := by
  obtain ⟨R, hD, ⟨h1, h2, h3, h4⟩ | ⟨p, e, y, j, -, h2, -⟩⟩ := read_cases fail h h0 hr hx
  · exact ⟨h1, R, hD, h3 ▸ WF.continues h2, h4⟩
  · rw [hf] at h2; cases h2

/-- Whatever throws, the bytes written up to then are the next bytes of the document, fewer than
were asked for, and nothing is undefined. -/
theorem C90_written (fail : Nat → Fault) (ctx : TraceContext) (x0 x x' : Exporter) (s out : Str)
    (n : Nat) (res : Res Unit) (h : ctx.Holds pid contents) (h0 : Exporter.make ctx = .ok x0)
    (hr : Reads pid x0 s x) (hx : read pid fail x n = (x', out, res)) :
    s ++ out <+: document pid ctx.threadNames (flatEvents contents) ∧ res ≠ .ub ∧
      ∀ e, res = .throw e → out.length < n ∧ ∃ k p, fail k = some (p, e) := by
  obtain ⟨R, hD, ⟨h1, -⟩ | ⟨p, e, y, j, h1, h2, h3, -⟩⟩ := read_cases fail h h0 hr hx
  · subst h1
    exact ⟨⟨R, hD.symm⟩, by simp, by simp⟩
  · subst h1
    refine ⟨⟨R, hD.symm⟩, by simp, ?_⟩
    intro e' he
    cases he
    exact ⟨h3, j, p, h2⟩

/-- If making the text of an item throws, the exporter goes on with the rest of the document when
nothing separates the item from what comes before it; otherwise the comma is in the document twice.
What is missing from the full property is that reading goes on with the rest of the document in all
cases: see `C90_refuted_comma`, `C90_refuted_lost`, `C90_refuted_end`. -/
theorem C90_retry_partial (fail : Nat → Fault) (ctx : TraceContext) (x0 x x' : Exporter)
    (s out : Str) (n : Nat) (e : Exn) (h : ctx.Holds pid contents) (h0 : Exporter.make ctx = .ok x0)
    (hr : Reads pid x0 s x) (hx : read pid fail x n = (x', out, .throw e))
    (hf : ∀ k p e, fail k = some (p, e) → p = .render) :
    ∃ R, document pid ctx.threadNames (flatEvents contents) = s ++ out ++ R ∧
      Continues pid x' (if R.head? = some ',' then ',' :: R else R) := by
  obtain ⟨R, hD, ⟨h1, -⟩ | ⟨p, e', y, j, h1, h2, -, h4, h5, h6, h7⟩⟩ := read_cases fail h h0 hr hx
  · cases h1
  · have := hf _ _ _ h2
    subst this
    refine ⟨R, hD, ?_⟩
    cases h7 with
    | renderFirst _ hs =>
      obtain ⟨t, l, hi⟩ := items_ne h4 (by rcases hs with hs | hs <;> simp [hs])
      have hR : R.head? = some '{' := by
        rw [← h6, left, h5]
        rcases hs with hs | hs <;> simp [pending, hs, hi, commaJoin_cons]
      rw [hR, if_neg (by decide), ← h6]
      exact WF.continues h4
    | renderOther _ hs =>
      obtain ⟨t, l, hi⟩ := items_ne h4 (by rcases hs with hs | hs <;> simp [hs])
      have hR : R.head? = some ',' := by
        rw [← h6, left, h5]
        rcases hs with hs | hs <;> simp [pending, hs, hi, commaEach]
      rw [hR, if_pos rfl]
      have := WF.continues (WF.cache h4 [','])
      rw [show ({ y with cache := [','] } : Exporter).left pid contents = ',' :: R by
        rw [← h6, left, left, h5]; rfl] at this
      exact this

/-- If appending the comma throws, the exporter goes on with the rest of the document. -/
theorem C90_comma (fail : Nat → Fault) (ctx : TraceContext) (x0 x x' : Exporter)
    (s out : Str) (n : Nat) (e : Exn) (h : ctx.Holds pid contents) (h0 : Exporter.make ctx = .ok x0)
    (hr : Reads pid x0 s x) (hx : read pid fail x n = (x', out, .throw e))
    (hf : ∀ k p e, fail k = some (p, e) → p = .comma) :
    ∃ R, document pid ctx.threadNames (flatEvents contents) = s ++ out ++ R ∧ Continues pid x' R := by
  obtain ⟨R, hD, ⟨h1, -⟩ | ⟨p, e', y, j, h1, h2, -, h4, h5, h6, h7⟩⟩ := read_cases fail h h0 hr hx
  · cases h1
  · have := hf _ _ _ h2
    subst this
    refine ⟨R, hD, ?_⟩
    cases h7
    rw [← h6]
    exact WF.continues h4

/-- The exception comes in the `i`-th round of the `switch`. -/
def failAt (i : Nat) (p : Place) (e : Exn) : Nat → Fault := fun k => if k = i then some (p, e) else none

/-- Reading everything, an exception at the given place, and reading again. -/
def twice (ctx : TraceContext) (i : Nat) (p : Place) : Res (Str × Str) :=
  Exporter.make ctx >>= fun x0 =>
    match read 42 (failAt i p .runtimeError) x0 1000 with
    | (x', out, .throw _) => Exporter.read 42 x' 1000 >>= fun r => .ok (out, r.1)
    | _ => .ub

/-- Texts of the items of `exampleContext`. -/
def nameA : Str :=
  "{\"name\":\"thread_name\",\"ph\":\"M\",\"pid\":42,\"tid\":7,\"args\":{\"name\":\"a\"}}".toList
@[inherit_doc nameA] def nameB : Str :=
  "{\"name\":\"thread_name\",\"ph\":\"M\",\"pid\":42,\"tid\":8,\"args\":{\"name\":\"b\"}}".toList
@[inherit_doc nameA] def eventA : Str :=
  ("{\"name\":\"na\\/me\",\"cat\":\"cat\",\"ph\":\"X\",\"dur\":0.089,\"ts\":1234.567," ++
    "\"pid\":42,\"tid\":7,\"args\":{\"x\":\"hello\",\"y\":-5}}").toList

/-- The text of the second thread name cannot be made at first: the comma before it is in the
document twice, which is then not JSON. -/
theorem C90_refuted_comma :
    twice exampleContext 2 .render = .ok ("{\"traceEvents\":[".toList ++ nameA,
      ",,".toList ++ nameB ++ ",".toList ++ eventA ++ "]}".toList) ∧
    ¬ Legal (("{\"traceEvents\":[".toList ++ nameA) ++
      (",,".toList ++ nameB ++ ",".toList ++ eventA ++ "]}".toList)) :=
  ⟨by decide +kernel, not_legal (by decide +kernel)⟩

/-- The text of the first thread name is made but cannot be appended: the document lacks it. -/
theorem C90_refuted_lost :
    twice exampleContext 1 .append = .ok ("{\"traceEvents\":[".toList,
      nameB ++ ",".toList ++ eventA ++ "]}".toList) ∧
    "{\"traceEvents\":[".toList ++ (nameB ++ ",".toList ++ eventA ++ "]}".toList) =
      document 42 (exampleContext.threadNames.drop 1) [(exampleEvent, 7)] :=
  ⟨by decide +kernel, by decide +kernel⟩

/-- The text of the last event is made but cannot be appended: the next read refers to an event
past the last one. -/
theorem C90_refuted_end : ∃ x0 x' out, Exporter.make exampleContext = .ok x0 ∧
    read 42 (failAt 3 .append .runtimeError) x0 1000 = (x', out, .throw .runtimeError) ∧
    Exporter.read 42 x' 2 = .ub := by
  refine ⟨{ buffer := ⟨.fixed, 0, [some exampleChunk], 1, 0, []⟩, it := ⟨0, 1, (0, 0)⟩,
            tit := exampleContext.threadNames, state := .opening, cache := [] },
    { buffer := ⟨.fixed, 0, [some exampleChunk], 1, 0, []⟩, it := ⟨1, 1, (0, 1)⟩,
      tit := [], state := .otherEvents, cache := [','] },
    "{\"traceEvents\":[".toList ++ nameA ++ ",".toList ++ nameB, ?_, ?_, ?_⟩ <;> decide +kernel

/-- A fault in the first item: reading goes on with the document. -/
example : twice exampleContext 1 .render = .ok ("{\"traceEvents\":[".toList,
    nameA ++ ",".toList ++ nameB ++ ",".toList ++ eventA ++ "]}".toList) := by decide +kernel

/-- The hypotheses of `C90_retry_partial` are met after some bytes have been read. -/
example : ∃ x0 x x' out, Exporter.make exampleContext = .ok x0 ∧
    Exporter.read 42 x0 20 = .ok ("{\"traceEvents\":[{\"na".toList, x) ∧
    Reads 42 x0 ("{\"traceEvents\":[{\"na".toList ++ []) x ∧
    read 42 (failAt 0 .render .invalidArgument) x 1000 = (x', out, .throw .invalidArgument) ∧
    out = nameA.drop 4 := by
  obtain ⟨x0, h0⟩ : ∃ x0, Exporter.make exampleContext = .ok x0 := ⟨_, rfl⟩
  cases h0
  refine ⟨_, _, _, _, rfl, rfl, .cons (n := 20) rfl (.nil _), rfl, by decide +kernel⟩

end Exporter.Ex
end Phosphor
