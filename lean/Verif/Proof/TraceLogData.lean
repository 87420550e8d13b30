import Verif.Proof.TraceLog
import Verif.Proof.BufOk
/-
What the buffers of a TraceLog hold, in every reachable state.
-/
namespace Phosphor.TLog
variable {ε : Type} {tid : Nat → Nat} {s s' : St ε} {t : Nat}

/-- The events in the chunks of thread `t`, in the order of the chunks. -/
def eventsOf (t : Nat) (cont : List (Nat × List ε)) : List ε :=
  cont.flatMap (fun p => if p.1 = t then p.2 else [])

theorem eventsOf_append (t : Nat) (a b : List (Nat × List ε)) :
    eventsOf t (a ++ b) = eventsOf t a ++ eventsOf t b := by simp [eventsOf]

theorem eventsOf_loan (t u : Nat) (cont : List (Nat × List ε)) :
    eventsOf t (cont ++ [(u, [])]) = eventsOf t cont := by
  rw [eventsOf_append]; simp [eventsOf]

theorem eventsOf_none {t : Nat} {cont : List (Nat × List ε)}
    (h : ∀ (j u : Nat) (evs : List ε), cont[j]? = some (u, evs) → u ≠ t) : eventsOf t cont = [] := by
  unfold eventsOf
  rw [List.flatMap_eq_nil_iff]
  intro p hp
  obtain ⟨j, hj⟩ := List.mem_iff_getElem?.1 hp
  rw [if_neg (h j p.1 p.2 hj)]

theorem modify_split {α : Type} {l : List α} {i : Nat} {a : α} (f : α → α) (h : l[i]? = some a) :
    l = l.take i ++ a :: l.drop (i + 1) ∧ l.modify i f = l.take i ++ f a :: l.drop (i + 1) := by
  induction l generalizing i with
  | nil => simp at h
  | cons x l ih =>
    cases i with
    | zero => simp at h; subst h; simp
    | succ i =>
      simp at h
      obtain ⟨h1, h2⟩ := ih h
      refine ⟨by simpa using h1, ?_⟩
      simp [h2]

/-- The last chunk of `t` gets another event. -/
theorem eventsOf_push {t i : Nat} {cont : List (Nat × List ε)} {evs : List ε} (e : ε)
    (hi : cont[i]? = some (t, evs))
    (hl : ∀ (j u : Nat) (evs : List ε), cont[j]? = some (u, evs) → i < j → u ≠ t) (u : Nat) :
    eventsOf u (cont.modify i (fun p => (p.1, p.2 ++ [e]))) =
      eventsOf u cont ++ (if u = t then [e] else []) := by
  obtain ⟨h1, h2⟩ := modify_split (fun p => (p.1, p.2 ++ [e])) hi
  rw [h2]
  conv => rhs; rw [h1]
  rw [eventsOf_append, eventsOf_append]
  by_cases hu : u = t
  · subst hu
    have : eventsOf u (cont.drop (i + 1)) = [] := by
      apply eventsOf_none
      intro j v evs' hj
      rw [List.getElem?_drop] at hj
      exact hl _ v evs' hj (by omega)
    unfold eventsOf at this ⊢
    simp [this]
  · have hu' : ¬ t = u := fun h => hu h.symm
    simp [eventsOf, hu, hu']

structure Data (tid : Nat → Nat) (s : St ε) : Prop where
  bufs : ∀ b, BufOk tid (s.heap b) (s.contents b)
  owns : ∀ t b i, (s.tenant t).chunk = some (b, i) → ∃ evs : List ε, (s.contents b)[i]? = some (t, evs)
  room : ∀ t e b i (evs : List ε), s.pc t = .store e → (s.tenant t).chunk = some (b, i) →
    (s.contents b)[i]? = some (t, evs) → evs.length < chunkSize
  queue : ∀ t b i, (s.tenant t).chunk = some (b, i) → i ∉ (s.heap b).queue
  fixedLast : ∀ t b i, (s.tenant t).chunk = some (b, i) → (s.heap b).mode ≠ .ring →
    ∀ (j u : Nat) (evs : List ε), (s.contents b)[j]? = some (u, evs) → i < j → u ≠ t
  fixedStored : ∀ b t, (s.heap b).mode ≠ .ring → eventsOf t (s.contents b) = s.stored b t
  chunkInfix : ∀ (b i t : Nat) (evs : List ε), (s.contents b)[i]? = some (t, evs) → evs <:+: s.stored b t
  chunkSuffix : ∀ (t b i : Nat) (evs : List ε), (s.tenant t).chunk = some (b, i) →
    (s.contents b)[i]? = some (t, evs) → evs <:+ s.stored b t
  gens : ∀ b, b < s.nextBuf → (s.heap b).generation = b

theorem Data.init : Data tid (St.init : St ε) := by
  refine ⟨fun b => BufOk.makeFixed 0 0, ?_, ?_, ?_, ?_, ?_, ?_, ?_, ?_⟩ <;> simp [St.init, eventsOf]

/-- Steps that do not touch the buffers. -/
theorem Data.mono (h : Data tid s) (h1 : s'.heap = s.heap) (h2 : s'.contents = s.contents)
    (h3 : s'.stored = s.stored) (h4 : s'.nextBuf = s.nextBuf)
    (h5 : ∀ u c, (s'.tenant u).chunk = some c → (s.tenant u).chunk = some c)
    (h6 : ∀ u e, s'.pc u = .store e → s.pc u = .store e ∨
      ∀ b i (evs : List ε), (s.tenant u).chunk = some (b, i) →
        (s.contents b)[i]? = some (u, evs) → evs.length < chunkSize) : Data tid s' := by
  obtain ⟨g1, g2, g3, g4, g5, g6, g7, g8, g9⟩ := h
  constructor
  · rw [h1, h2]; exact g1
  · rw [h2]; intro u b i hc; exact g2 u b i (h5 u _ hc)
  · rw [h2]; intro u e b i evs hp hc hi
    rcases h6 u e hp with h | h
    · exact g3 u e b i evs h (h5 u _ hc) hi
    · exact h b i evs (h5 u _ hc) hi
  · rw [h1]; intro u b i hc; exact g4 u b i (h5 u _ hc)
  · rw [h1, h2]; intro u b i hc; exact g5 u b i (h5 u _ hc)
  · rw [h1, h2, h3]; exact g6
  · rw [h2, h3]; exact g7
  · rw [h2, h3]; intro u b i evs hc; exact g8 u b i evs (h5 u _ hc)
  · rw [h1, h4]; exact g9

theorem goto_store {s : St ε} {t : Nat} {q : Pc ε} (hq : ∀ e, q ≠ .store e) (u : Nat) (e : ε)
    (h : (s.goto t q).pc u = .store e) : s.pc u = .store e := by
  simp only [St.goto, setf] at h
  split at h
  · exact absurd h (hq e)
  · exact h

/-- A plain jump, not to `store`. -/
theorem Data.goto (h : Data tid s) {q : Pc ε} (hq : ∀ e, q ≠ .store e) : Data tid (s.goto t q) :=
  h.mono rfl rfl rfl rfl (fun _ _ h => h) (fun u e hp => Or.inl (goto_store hq u e hp))

theorem Data.setLock (h : Data tid s) {u : Nat} {l : ChunkLock.State} : Data tid (s.setLock u l) :=
  h.mono rfl rfl rfl rfl
    (fun v c hc => by
      simp only [St.setLock, setf] at hc
      split at hc
      · subst_vars; exact hc
      · exact hc)
    (fun _ _ hp => Or.inl hp)

theorem Data.dropChunk (h : Data tid s) {u : Nat} : Data tid (s.setChunk u none) :=
  h.mono rfl rfl rfl rfl
    (fun v c hc => by
      simp only [St.setChunk, setf] at hc
      split at hc
      · simp at hc
      · exact hc)
    (fun _ _ hp => Or.inl hp)

/-- Buffer `p` changes its counters and queue only. -/
theorem Data.setBuf (h : Data tid s) {p : Nat} {x : Buffer ε} (hx : BufOk tid x (s.contents p))
    (hq : ∀ u i, (s.tenant u).chunk = some (p, i) → i ∉ x.queue)
    (hm : x.mode = (s.heap p).mode) (hg : x.generation = (s.heap p).generation) :
    Data tid (s.setBuf p x) := by
  obtain ⟨g1, g2, g3, g4, g5, g6, g7, g8, g9⟩ := h
  have hm' : ∀ b, ((s.setBuf p x).heap b).mode = (s.heap b).mode := by
    intro b; simp only [St.setBuf, setf]; split <;> simp_all
  have hg' : ∀ b, ((s.setBuf p x).heap b).generation = (s.heap b).generation := by
    intro b; simp only [St.setBuf, setf]; split <;> simp_all
  refine ⟨?_, g2, g3, ?_, ?_, ?_, g7, g8, ?_⟩
  · intro b
    simp only [St.setBuf, setf]
    split
    · subst_vars; exact hx
    · exact g1 b
  · intro u b i hc
    simp only [St.setBuf, setf]
    split
    · subst_vars; exact hq u i hc
    · exact g4 u b i hc
  · intro u b i hc hr; rw [hm'] at hr; exact g5 u b i hc hr
  · intro b u hr; rw [hm'] at hr; exact g6 b u hr
  · intro b hb; rw [hg']; exact g9 b hb

/-- The state in which `t` has got chunk `i` of `p` and is about to store `e`. -/
theorem Data.loan (h : Data tid s) (hn : (s.tenant t).chunk = none) {p i : Nat} {x : Buffer ε}
    {e : ε} {cont' : List (Nat × List ε)}
    (hc' : cont' = if i < (s.contents p).length then (s.contents p).set i (t, [])
      else s.contents p ++ [(t, [])])
    (hi : i ≤ (s.contents p).length) (hx : BufOk tid x cont')
    (hfree : ∀ u, (s.tenant u).chunk ≠ some (p, i))
    (hq : ∀ u j, (s.tenant u).chunk = some (p, j) → j ∉ x.queue) (hqi : i ∉ x.queue)
    (hfix : x.mode ≠ .ring → i = (s.contents p).length)
    (hm : x.mode = (s.heap p).mode) (hg : x.generation = (s.heap p).generation) :
    Data tid ((((s.setBuf p x).loaned t p i).setChunk t (some (p, i))).goto t (.store e)) := by
  obtain ⟨g1, g2, g3, g4, g5, g6, g7, g8, g9⟩ := h
  generalize hs' : (((s.setBuf p x).loaned t p i).setChunk t (some (p, i))).goto t (.store e) = s'
  have hheap : s'.heap = setf s.heap p x := by rw [← hs']; rfl
  have hcont : s'.contents = setf s.contents p cont' := by
    rw [← hs', hc']; rfl
  have hstored : s'.stored = s.stored := by rw [← hs']; rfl
  have hnext : s'.nextBuf = s.nextBuf := by rw [← hs']; rfl
  have hpc : ∀ u, u ≠ t → s'.pc u = s.pc u := by
    intro u hu; rw [← hs']; simp [St.goto, setf, hu, St.setChunk, St.loaned, St.setBuf]
  have hchunk : ∀ u, (s'.tenant u).chunk = if u = t then some (p, i) else (s.tenant u).chunk := by
    intro u; rw [← hs']; simp only [St.goto, St.setChunk, setf, St.loaned, St.setBuf]; split <;> rfl
  have hget : cont'[i]? = some (t, []) := by
    rw [hc']; split
    · rw [List.getElem?_set_self (by assumption)]
    · have : i = (s.contents p).length := by omega
      subst this; simp
  have hother : ∀ j, j ≠ i → cont'[j]? = (s.contents p)[j]? := by
    intro j hj
    rw [hc']; split
    · rw [List.getElem?_set_ne (by omega)]
    · have : i = (s.contents p).length := by omega
      subst this
      rcases Nat.lt_or_ge j (s.contents p).length with hlt | hge
      · rw [List.getElem?_append_left hlt]
      · rw [List.getElem?_append_right hge, List.getElem?_eq_none (by simp; omega),
          List.getElem?_eq_none hge]
  have hc0 : ∀ b, b ≠ p → s'.contents b = s.contents b := by
    intro b hb; rw [hcont]; exact setf_ne _ _ hb
  have hcp : s'.contents p = cont' := by rw [hcont]; exact setf_self _ _ _
  have hh0 : ∀ b, b ≠ p → s'.heap b = s.heap b := by
    intro b hb; rw [hheap]; exact setf_ne _ _ hb
  have hhp : s'.heap p = x := by rw [hheap]; exact setf_self _ _ _
  have hci : ∀ u j, u ≠ t → (s.tenant u).chunk = some (p, j) → j ≠ i := by
    rintro u j hu hc rfl; exact hfree u hc
  constructor
  · intro b
    by_cases hb : b = p
    · subst hb; rw [hcp, hhp]; exact hx
    · rw [hc0 b hb, hh0 b hb]; exact g1 b
  · intro u b j hc
    rw [hchunk] at hc
    split at hc
    · rename_i hut; subst hut; cases hc; exact ⟨[], by rw [hcp]; exact hget⟩
    · by_cases hb : b = p
      · subst hb
        rw [hcp, hother j (hci u j (by assumption) hc)]; exact g2 u b j hc
      · rw [hc0 b hb]; exact g2 u b j hc
  · intro u e' b j evs hp hc hj
    rw [hchunk] at hc
    split at hc
    · rename_i hut; subst hut; cases hc
      rw [hcp, hget] at hj; cases hj; exact chunkSize_pos
    · rw [hpc u (by assumption)] at hp
      by_cases hb : b = p
      · subst hb
        rw [hcp, hother j (hci u j (by assumption) hc)] at hj; exact g3 u e' b j evs hp hc hj
      · rw [hc0 b hb] at hj; exact g3 u e' b j evs hp hc hj
  · intro u b j hc
    rw [hchunk] at hc
    split at hc
    · rename_i hut; subst hut; cases hc; rw [hhp]; exact hqi
    · by_cases hb : b = p
      · subst hb; rw [hhp]; exact hq u j hc
      · rw [hh0 b hb]; exact g4 u b j hc
  · intro u b j hc hr k v evs hk hjk
    rw [hchunk] at hc
    by_cases hb : b = p
    · subst hb
      rw [hhp] at hr
      have hi' := hfix hr
      rw [hcp] at hk
      split at hc
      · rename_i hut; subst hut; cases hc
        rw [hother k (by omega), List.getElem?_eq_none (by omega)] at hk; cases hk
      · by_cases hki : k = i
        · subst hki; rw [hget] at hk; cases hk; rename_i hu; exact fun h => hu h.symm
        · rw [hother k hki] at hk
          exact g5 u b j hc (by rw [← hm]; exact hr) k v evs hk hjk
    · rw [hh0 b hb] at hr
      rw [hc0 b hb] at hk
      split at hc
      · rename_i hut; subst hut; cases hc; exact absurd rfl hb
      · exact g5 u b j hc hr k v evs hk hjk
  · intro b u hr
    rw [hstored]
    by_cases hb : b = p
    · subst hb
      rw [hhp] at hr
      have hi' := hfix hr
      rw [hcp, hc', if_neg (by omega), eventsOf_loan]
      exact g6 b u (by rw [← hm]; exact hr)
    · rw [hc0 b hb]; rw [hh0 b hb] at hr; exact g6 b u hr
  · intro b j u evs hj
    rw [hstored]
    by_cases hb : b = p
    · subst hb
      rw [hcp] at hj
      by_cases hji : j = i
      · subst hji; rw [hget] at hj; cases hj; exact ⟨[], s.stored b t, by simp⟩
      · rw [hother j hji] at hj; exact g7 b j u evs hj
    · rw [hc0 b hb] at hj; exact g7 b j u evs hj
  · intro u b j evs hc hj
    rw [hstored]
    rw [hchunk] at hc
    split at hc
    · rename_i hut; subst hut; cases hc; rw [hcp, hget] at hj; cases hj; exact List.nil_suffix
    · by_cases hb : b = p
      · subst hb
        rw [hcp, hother j (hci u j (by assumption) hc)] at hj; exact g8 u b j evs hc hj
      · rw [hc0 b hb] at hj; exact g8 u b j evs hc hj
  · intro b hb
    rw [hnext] at hb
    by_cases hbp : b = p
    · subst hbp; rw [hhp, hg]; exact g9 b hb
    · rw [hh0 b hbp]; exact g9 b hb

/-- Storing an event works and adds it at the end of the thread's chunk. -/
theorem Data.store (h : Data tid s) {e : ε} {b i : Nat} (hp : s.pc t = .store e)
    (hc : (s.tenant t).chunk = some (b, i)) :
    ∃ x, (s.heap b).pushAt i e = (x, .ok ()) ∧
      Data tid (((s.setBuf b x).recorded t b i e).goto t .unlock) := by
  obtain ⟨g1, g2, g3, g4, g5, g6, g7, g8, g9⟩ := h
  obtain ⟨evs, hi⟩ := g2 t b i hc
  have hr := g3 t e b i evs hp hc hi
  obtain ⟨x, hx, hok, hq, hm, hg⟩ := (g1 b).push hi hr e
  refine ⟨x, hx, ?_⟩
  generalize hs' : ((s.setBuf b x).recorded t b i e).goto t .unlock = s'
  have hheap : s'.heap = setf s.heap b x := by rw [← hs']; rfl
  have hcont : s'.contents = setf s.contents b
      ((s.contents b).modify i (fun p => (p.1, p.2 ++ [e]))) := by rw [← hs']; rfl
  have hstored : s'.stored = setf s.stored b (setf (s.stored b) t (s.stored b t ++ [e])) := by
    rw [← hs']; rfl
  have hnext : s'.nextBuf = s.nextBuf := by rw [← hs']; rfl
  have hten : s'.tenant = s.tenant := by rw [← hs']; rfl
  have hpc : ∀ u e', s'.pc u = .store e' → s.pc u = .store e' ∧ u ≠ t := by
    intro u e' hu; rw [← hs'] at hu
    refine ⟨goto_store (by simp) u e' hu, ?_⟩
    rintro rfl
    rw [goto_pc] at hu; cases hu
  have hc0 : ∀ c, c ≠ b → s'.contents c = s.contents c := by
    intro c hb; rw [hcont]; exact setf_ne _ _ hb
  have hcb : s'.contents b = (s.contents b).modify i (fun p => (p.1, p.2 ++ [e])) := by
    rw [hcont]; exact setf_self _ _ _
  have hgetb : ∀ j, (s'.contents b)[j]? = if j = i then some (t, evs ++ [e]) else (s.contents b)[j]? := by
    intro j
    rw [hcb, List.getElem?_modify]
    by_cases hji : j = i
    · subst hji; rw [hi]; simp
    · have : ¬ i = j := fun h => hji h.symm
      simp [hji, this]
  have hh0 : ∀ c, c ≠ b → s'.heap c = s.heap c := by
    intro c hb; rw [hheap]; exact setf_ne _ _ hb
  have hhb : s'.heap b = x := by rw [hheap]; exact setf_self _ _ _
  have hs0 : ∀ c u, (c ≠ b ∨ u ≠ t) → s'.stored c u = s.stored c u := by
    intro c u hcu
    rw [hstored]
    by_cases hcb : c = b
    · subst hcb
      rw [setf_self]
      rcases hcu with h | h
      · exact absurd rfl h
      · exact setf_ne _ _ h
    · rw [setf_ne _ _ hcb]
  have hsb : s'.stored b t = s.stored b t ++ [e] := by rw [hstored]; simp
  have hown : ∀ u j, (s.tenant u).chunk = some (b, j) → u ≠ t → j ≠ i := by
    rintro u j huc hut rfl
    obtain ⟨evs', hu⟩ := g2 u b j huc
    rw [hi] at hu; cases hu; exact hut rfl
  constructor
  · intro c
    by_cases hb : c = b
    · subst hb; rw [hcb, hhb]; exact hok
    · rw [hc0 c hb, hh0 c hb]; exact g1 c
  · intro u c j huc
    rw [hten] at huc
    by_cases hb : c = b
    · subst hb
      rw [hgetb]
      by_cases hut : u = t
      · subst hut; rw [hc] at huc; cases huc; exact ⟨_, if_pos rfl⟩
      · rw [if_neg (hown u j huc hut)]; exact g2 u c j huc
    · rw [hc0 c hb]; exact g2 u c j huc
  · intro u e' c j evs' hu huc hj
    rw [hten] at huc
    obtain ⟨hu, hut⟩ := hpc u e' hu
    by_cases hb : c = b
    · subst hb
      rw [hgetb, if_neg (hown u j huc hut)] at hj
      exact g3 u e' c j evs' hu huc hj
    · rw [hc0 c hb] at hj; exact g3 u e' c j evs' hu huc hj
  · intro u c j huc
    rw [hten] at huc
    by_cases hb : c = b
    · subst hb; rw [hhb, hq]; exact g4 u c j huc
    · rw [hh0 c hb]; exact g4 u c j huc
  · intro u c j huc hr' k v evs' hk hjk
    rw [hten] at huc
    by_cases hb : c = b
    · subst hb
      rw [hhb, hm] at hr'
      rw [hgetb] at hk
      split at hk
      · subst_vars; cases hk; exact g5 u c j huc hr' _ _ evs hi hjk
      · exact g5 u c j huc hr' k v evs' hk hjk
    · rw [hh0 c hb] at hr'
      rw [hc0 c hb] at hk
      exact g5 u c j huc hr' k v evs' hk hjk
  · intro c u hr'
    by_cases hb : c = b
    · subst hb
      rw [hhb, hm] at hr'
      rw [hcb, eventsOf_push e hi (g5 t c i hc hr'), g6 c u hr']
      by_cases hut : u = t
      · subst hut; rw [hsb]; simp
      · rw [hs0 c u (Or.inr hut)]; simp [hut]
    · rw [hh0 c hb] at hr'
      rw [hc0 c hb, hs0 c u (Or.inl hb)]; exact g6 c u hr'
  · intro c j u evs' hj
    by_cases hb : c = b
    · subst hb
      rw [hgetb] at hj
      split at hj
      · cases hj
        rw [hsb]
        obtain ⟨l, hl⟩ := g8 t c i evs hc hi
        exact ⟨l, [], by rw [← hl]; simp⟩
      · by_cases hut : u = t
        · subst hut
          rw [hsb]
          exact (g7 c j u evs' hj).trans ⟨[], [e], by simp⟩
        · rw [hs0 c u (Or.inr hut)]; exact g7 c j u evs' hj
    · rw [hc0 c hb] at hj; rw [hs0 c u (Or.inl hb)]; exact g7 c j u evs' hj
  · intro u c j evs' huc hj
    rw [hten] at huc
    by_cases hb : c = b
    · subst hb
      rw [hgetb] at hj
      by_cases hut : u = t
      · subst hut
        rw [hc] at huc; cases huc
        rw [if_pos rfl] at hj; cases hj
        rw [hsb]
        obtain ⟨l, hl⟩ := g8 u c _ evs hc hi
        exact ⟨l, by rw [← hl]; simp⟩
      · rw [if_neg (hown u j huc hut)] at hj
        rw [hs0 c u (Or.inr hut)]; exact g8 u c j evs' huc hj
    · rw [hc0 c hb] at hj; rw [hs0 c u (Or.inl hb)]; exact g8 u c j evs' huc hj
  · intro c hc'
    rw [hnext] at hc'
    by_cases hb : c = b
    · subst hb; rw [hhb, hg]; exact g9 c hc'
    · rw [hh0 c hb]; exact g9 c hc'

/-- A new buffer, of which no thread holds a chunk. -/
theorem Data.createBuffer (h : Data tid s) (hg : s.generation = s.nextBuf)
    (hn : ∀ u b i, (s.tenant u).chunk = some (b, i) → b ≠ s.nextBuf) (n : Nat) : Data tid (s.createBuffer n) := by
  obtain ⟨g1, g2, g3, g4, g5, g6, g7, g8, g9⟩ := h
  have hmk : ∀ g, BufOk tid (makeBuffer s.config g n : Buffer ε) [] ∧
      (makeBuffer s.config g n : Buffer ε).generation = g := by
    intro g
    unfold makeBuffer
    split
    · exact ⟨BufOk.makeRing _ _, rfl⟩
    · exact ⟨BufOk.makeFixed _ _, rfl⟩
  refine ⟨?_, ?_, ?_, ?_, ?_, ?_, ?_, ?_, ?_⟩
  · intro b
    simp only [St.createBuffer, setf]
    split
    · exact (hmk _).1
    · exact g1 b
  · intro u b i hc
    simp only [St.createBuffer, setf] at hc ⊢
    rw [if_neg (hn u b i hc)]; exact g2 u b i hc
  · intro u e b i evs hp hc hi
    simp only [St.createBuffer, setf] at hp hc hi
    rw [if_neg (hn u b i hc)] at hi; exact g3 u e b i evs hp hc hi
  · intro u b i hc
    simp only [St.createBuffer, setf] at hc ⊢
    rw [if_neg (hn u b i hc)]; exact g4 u b i hc
  · intro u b i hc
    simp only [St.createBuffer, setf] at hc ⊢
    rw [if_neg (hn u b i hc), if_neg (hn u b i hc)]; exact g5 u b i hc
  · intro b u hr
    simp only [St.createBuffer, setf] at hr ⊢
    split
    · simp [eventsOf]
    · rename_i hb; rw [if_neg hb] at hr; exact g6 b u hr
  · intro b i u evs hi
    simp only [St.createBuffer, setf] at hi ⊢
    split
    · rename_i hb; rw [if_pos hb] at hi; simp at hi
    · rename_i hb; rw [if_neg hb] at hi; exact g7 b i u evs hi
  · intro u b i evs hc
    simp only [St.createBuffer, setf] at hc ⊢
    rw [if_neg (hn u b i hc), if_neg (hn u b i hc)]; exact g8 u b i evs hc
  · intro b hb
    simp only [St.createBuffer, setf] at hb ⊢
    split
    · subst_vars; rw [(hmk _).2, hg]
    · exact g9 b (by omega)

end Phosphor.TLog
