import Verif.Proofs.EM2
import Verif.Proofs.PruneCount
import Verif.Props.Model
/-
Without dropout, pruning in exact arithmetic is a function of its inputs.
-/
namespace Tokengeex
open Spec ScoreOps

theorem populateNodes_rnd {F : Type} [ScoreOps F] (m : Model F) (l : Lattice F) {dropout : F} (hd : lt zero dropout = false)
    (rnd rnd' : Nat → F) : m.populateNodes l dropout rnd = m.populateNodes l dropout rnd' := by
  have : Model.populateNode m dropout rnd = Model.populateNode m dropout rnd' := by
    funext pos st c
    unfold Model.populateNode Model.skipNode
    rw [hd]
    simp only [Bool.and_false]
    rfl
  unfold Model.populateNodes
  rw [this]

/-- The second vector of `n` numbers differs from the first one by `D`. -/
def Shifted (n : Nat) (D : Nat → ℝ) (a b : List ℝ) : Prop :=
  a.length = n ∧ b.length = n ∧ ∀ i, b.getD i 0 = a.getD i 0 + D i

theorem foldlM_shifted {α : Type} (sz : Nat) (D : Nat → ℝ) (f : List ℝ → α → Res (List ℝ))
    (hf : ∀ x a b a', Shifted sz D a b → f a x = .ok a' → ∃ b', f b x = .ok b' ∧ Shifted sz D a' b') :
    ∀ (l : List α) (a b a' : List ℝ), Shifted sz D a b → l.foldlM f a = .ok a' → ∃ b', l.foldlM f b = .ok b' ∧ Shifted sz D a' b' := by
  intro l
  induction l with
  | nil => intro a b a' h e; cases e; exact ⟨b, rfl, h⟩
  | cons x l ih =>
    intro a b a' h e
    rw [List.foldlM_cons] at e
    cases hx : f a x with
    | error er => rw [hx] at e; simp at e
    | ok a₁ =>
      rw [hx] at e
      obtain ⟨b₁, h1, h2⟩ := hf x a b a₁ h hx
      obtain ⟨b', h3, h4⟩ := ih a₁ b₁ a' h2 e
      exact ⟨b', by rw [List.foldlM_cons, h1]; exact h3, h4⟩

theorem addMarginal_shifted (sz : Nat) (D : Nat → ℝ) (nodes : List (LNode ℝ)) (alpha beta : List ℝ) (z : ℝ) (x : Nat) (a b a' : List ℝ)
    (h : Shifted sz D a b) (e : Lattice.addMarginal nodes alpha beta z a x = .ok a') :
    ∃ b', Lattice.addMarginal nodes alpha beta z b x = .ok b' ∧ Shifted sz D a' b' := by
  unfold Lattice.addMarginal at e ⊢
  cases h1 : idx nodes x with
  | error er => rw [h1] at e; simp at e
  | ok n =>
  cases h2 : idx alpha x with
  | error er => rw [h1, h2] at e; simp at e
  | ok p =>
  cases h3 : idx beta x with
  | error er => rw [h1, h2, h3] at e; simp at e
  | ok q =>
  rw [h1, h2, h3] at e
  simp only [res_bind_ok] at e ⊢
  cases h4 : idx a n.tokenId with
  | error er => rw [h4] at e; simp at e
  | ok old =>
    rw [h4] at e
    simp only [res_bind_ok] at e
    have hlt : n.tokenId < a.length := by
      unfold idx at h4
      by_contra hge
      rw [List.getElem?_eq_none (by omega)] at h4
      simp at h4
    have hlt' : n.tokenId < b.length := by rw [h.2.1, ← h.1]; exact hlt
    have ho : old = a[n.tokenId] := by
      unfold idx at h4
      rw [List.getElem?_eq_getElem hlt] at h4
      simpa using h4.symm
    have hb : idx b n.tokenId = .ok b[n.tokenId] := by
      unfold idx
      rw [List.getElem?_eq_getElem hlt']
    rw [hb]
    simp only [res_bind_ok]
    unfold setIdx at e ⊢
    rw [if_pos hlt] at e
    rw [if_pos hlt']
    cases e
    refine ⟨_, rfl, by simpa using h.1, by simpa using h.2.1, fun i => ?_⟩
    · have hi := h.2.2 i
      have hn := h.2.2 n.tokenId
      rw [List.getD_eq_getElem?_getD, List.getD_eq_getElem?_getD] at hi hn ⊢
      by_cases hin : n.tokenId = i
      · subst hin
        rw [List.getElem?_set_self hlt, List.getElem?_set_self hlt']
        rw [List.getElem?_eq_getElem hlt, List.getElem?_eq_getElem hlt'] at hn
        simp only [Option.getD_some] at hn ⊢
        rw [ho, hn]
        show a[n.tokenId] + D n.tokenId + _ = a[n.tokenId] + _ + D n.tokenId
        ring
      · rw [List.getElem?_set_ne hin, List.getElem?_set_ne hin]
        exact hi

theorem populateMarginal_shifted (sz : Nat) (D : Nat → ℝ) (l : Lattice ℝ) (a b a' : List ℝ) (z : ℝ) (h : Shifted sz D a b)
    (e : l.populateMarginal a = .ok (a', z)) : ∃ b', l.populateMarginal b = .ok (b', z) ∧ Shifted sz D a' b' := by
  unfold Lattice.populateMarginal at e ⊢
  cases h1 : Lattice.forwardTable l with
  | error er => rw [h1] at e; simp at e
  | ok alpha =>
  cases h2 : Lattice.backwardTable l with
  | error er => rw [h1, h2] at e; simp at e
  | ok beta =>
  rw [h1, h2] at e
  simp only [res_bind_ok] at e ⊢
  cases h3 : idx alpha l.eosIdx with
  | error er => rw [h3] at e; simp at e
  | ok z' =>
  rw [h3] at e
  simp only [res_bind_ok] at e ⊢
  generalize hF : (fun (expected : List ℝ) (pos : Nat) => (do
      let b ← idx l.beginNodes pos
      b.foldlM (Lattice.addMarginal l.nodes alpha beta z') expected : Res (List ℝ))) = F at e ⊢
  cases h4 : (List.range l.sentence.length).foldlM F a with
  | error er => rw [h4] at e; simp at e
  | ok a₁ =>
    rw [h4] at e
    simp only [res_bind_ok, res_pure, Except.ok.injEq, Prod.mk.injEq] at e
    obtain ⟨rfl, rfl⟩ := e
    obtain ⟨b', h5, h6⟩ := foldlM_shifted sz D F (by
      intro pos x y x' hxy hx
      subst hF
      simp only at hx ⊢
      cases h7 : idx l.beginNodes pos with
      | error er => rw [h7] at hx; simp at hx
      | ok ns =>
        rw [h7] at hx
        simp only [res_bind_ok] at hx ⊢
        exact foldlM_shifted sz D _ (fun j p q p' hpq hp => addMarginal_shifted sz D _ _ _ _ j p q p' hpq hp) ns x y x' hxy hx)
      _ a b _ h h4
    rw [h5]
    exact ⟨b', rfl, h6⟩

namespace Pruner

/-- What the E-step adds to the expected frequency of the token `i` for a piece of a sample, without dropout. -/
noncomputable def pieceSum (m : Model ℝ) (dropout : ℝ) (i : Nat) (p : List UInt8) : ℝ :=
  match m.populateNodes (latticeOf p []) dropout (fun _ => 0) with
  | .ok q =>
    match q.1.populateMarginal (List.replicate m.vocabSize 0) with
    | .ok e => e.1.getD i 0
    | .error _ => 0
  | .error _ => 0

/-- What the E-step adds for a sample. -/
noncomputable def sampleSum (m : Model ℝ) (dropout : ℝ) (i : Nat) (s : Str) : ℝ :=
  ((Parallel.chunks maxSampleLength (enc s)).map (pieceSum m dropout i)).sum

theorem eSnippet_sum (m : Model ℝ) {dropout : ℝ} (hd : lt zero dropout = false) (rnd : Nat → ℝ) (st st' : EState ℝ) (p : List UInt8)
    (hist : History st.pool st.lattice) (hlen : st.expected.length = m.vocabSize) (h : eSnippet m dropout rnd st p = .ok st') :
    History st'.pool st'.lattice ∧ st'.expected.length = m.vocabSize ∧
      ∀ i, st'.expected.getD i 0 = st.expected.getD i 0 + pieceSum m dropout i p := by
  obtain ⟨pool', hfrom, _⟩ := from_clean st.lattice p (history_clean hist)
  unfold eSnippet at h
  rw [hfrom] at h
  simp only [res_bind_ok] at h
  rw [populateNodes_rnd m _ hd _ (fun _ => 0)] at h
  cases hq : m.populateNodes (latticeOf p []) dropout (fun _ => 0) with
  | error er => rw [hq] at h; simp at h
  | ok q =>
  rw [hq] at h
  simp only [res_bind_ok] at h
  cases he : q.1.populateMarginal st.expected with
  | error er => rw [he] at h; simp at h
  | ok e =>
  rw [he] at h
  simp only [res_bind_ok] at h
  have hst : st' = { lattice := q.1, pool := pool', draws := st.draws + q.2, expected := e.1 } := by
    by_cases hn : (!TrainOps.isNormal e.2) = true
    · rw [if_pos hn] at h; simp at h
    · rw [if_neg hn] at h
      simpa using h.symm
  obtain ⟨b', h1, h2⟩ := populateMarginal_shifted m.vocabSize (fun i => - st.expected.getD i 0) q.1 st.expected (List.replicate m.vocabSize 0) e.1 e.2
    ⟨hlen, by simp, fun i => by
      have : (List.replicate m.vocabSize (0 : ℝ)).getD i 0 = 0 := by
        simp only [List.getD_eq_getElem?_getD, List.getElem?_replicate]
        split <;> rfl
      rw [this]; ring⟩ he
  subst hst
  refine ⟨(History.reinit p hist hfrom).other _, h2.1, fun i => ?_⟩
  · show e.1.getD i 0 = _
    have := h2.2.2 i
    unfold pieceSum
    rw [hq]
    simp only
    rw [h1]
    simp only
    rw [this]
    ring

theorem ePieces_sum (m : Model ℝ) {dropout : ℝ} (hd : lt zero dropout = false) (rnd : Nat → ℝ) :
    ∀ (ps : List (List UInt8)) (st st' : EState ℝ), History st.pool st.lattice → st.expected.length = m.vocabSize →
    ps.foldlM (eSnippet m dropout rnd) st = .ok st' →
    History st'.pool st'.lattice ∧ st'.expected.length = m.vocabSize ∧
      ∀ i, st'.expected.getD i 0 = st.expected.getD i 0 + (ps.map (pieceSum m dropout i)).sum := by
  intro ps
  induction ps with
  | nil => intro st st' h hl e; cases e; exact ⟨h, hl, by simp⟩
  | cons p ps ih =>
    intro st st' h hl e
    rw [List.foldlM_cons] at e
    cases hx : eSnippet m dropout rnd st p with
    | error er => rw [hx] at e; simp at e
    | ok st₁ =>
      rw [hx] at e
      obtain ⟨h1, h2, h3⟩ := eSnippet_sum m hd rnd st st₁ p h hl hx
      obtain ⟨h4, h5, h6⟩ := ih st₁ st' h1 h2 e
      refine ⟨h4, h5, fun i => ?_⟩
      rw [h6, h3, List.map_cons, List.sum_cons]
      ring

theorem eChunk_sum (m : Model ℝ) {dropout : ℝ} (hd : lt zero dropout = false) (rnd : Nat → ℝ) :
    ∀ (chunk : List Str) (st st' : EState ℝ), History st.pool st.lattice → st.expected.length = m.vocabSize →
    eChunk m dropout rnd chunk st = .ok st' →
    st'.expected.length = m.vocabSize ∧
      ∀ i, st'.expected.getD i 0 = st.expected.getD i 0 + (chunk.map (sampleSum m dropout i)).sum := by
  intro chunk
  induction chunk with
  | nil => intro st st' h hl e; cases e; exact ⟨hl, by simp⟩
  | cons s chunk ih =>
    intro st st' h hl e
    unfold eChunk at e
    rw [List.foldlM_cons] at e
    cases hx : (Parallel.chunks maxSampleLength (enc s)).foldlM (eSnippet m dropout rnd) st with
    | error er => rw [hx] at e; simp at e
    | ok st₁ =>
      rw [hx] at e
      obtain ⟨h1, h2, h3⟩ := ePieces_sum m hd rnd _ st st₁ h hl hx
      obtain ⟨h5, h6⟩ := ih st₁ st' h1 h2 e
      refine ⟨h5, fun i => ?_⟩
      rw [h6, h3, List.map_cons, List.sum_cons, sampleSum]
      ring

/-- Without dropout the result of the E-step does not depend on threads, schedules and the order of the samples. -/
theorem eStep_eq (m : Model ℝ) {dropout : ℝ} (hd : lt zero dropout = false) (samples : List Str) (freqs : List ℝ)
    (h : EStep m dropout samples freqs) :
    freqs = (List.range m.vocabSize).map fun i => (samples.map (sampleSum m dropout i)).sum := by
  obtain ⟨val, hv, rfl⟩ := h
  have hsum : ∀ i, val i = (samples.map (fun s => if i < m.vocabSize then sampleSum m dropout i s else 0)).sum := by
    refine fun i => parCount_sum (K := Nat) (M := ℝ) (fun _ => 0)
      (fun i s => if i < m.vocabSize then sampleSum m dropout i s else 0) ?_ hv i
    rintro chunk p ⟨rnd, st, hst, rfl⟩
    refine ⟨Parallel.safe_locked _, fun i => ?_⟩
    obtain ⟨h1, h2⟩ := eChunk_sum m hd rnd chunk _ st (eInit_history m) (by simp [eInit]) hst
    rw [Parallel.pending_locked, entrySum_zipIdx_real]
    by_cases hi : i < m.vocabSize
    · simp only [if_pos hi]
      rw [h2]
      have : (eInit m).expected.getD i 0 = 0 := by
        unfold eInit
        simp only [List.getD_eq_getElem?_getD, List.getElem?_replicate]
        split <;> rfl
      rw [this, zero_add]
    · simp only [if_neg hi]
      rw [List.getD_eq_getElem?_getD, List.getElem?_eq_none (by omega)]
      simp
  refine List.map_congr_left fun i hi => ?_
  rw [hsum, List.map_congr_left]
  intro s _
  rw [if_pos (List.mem_range.1 hi)]

theorem eStep_unique (m : Model ℝ) {dropout : ℝ} (hd : lt zero dropout = false) {samples samples' : List Str}
    (hp : samples.Perm samples') {freqs freqs' : List ℝ} (h : EStep m dropout samples freqs) (h' : EStep m dropout samples' freqs') :
    freqs = freqs' := by
  rw [eStep_eq m hd samples freqs h, eStep_eq m hd samples' freqs' h']
  exact List.map_congr_left fun i _ => (hp.map _).sum_eq

theorem emStep_unique (c : Pruner ℝ) (hd : lt zero c.dropout = false) {samples samples' : List Str}
    (hp : samples.Perm samples') {m m₁ m₂ : Model ℝ} (h₁ : EMStep c samples m m₁) (h₂ : EMStep c samples' m m₂) : m₁ = m₂ := by
  obtain ⟨f₁, v₁, k₁, e₁, g₁, rfl⟩ := h₁
  obtain ⟨f₂, v₂, k₂, e₂, g₂, rfl⟩ := h₂
  obtain rfl := eStep_unique m hd hp e₁ e₂
  have a := g₁ (max k₁ k₂) (le_max_left ..)
  have b := g₂ (max k₁ k₂) (le_max_right ..)
  rw [a] at b
  cases b
  rfl

theorem emSteps_unique (c : Pruner ℝ) (hd : lt zero c.dropout = false) {samples samples' : List Str}
    (hp : samples.Perm samples') {n : Nat} {m m₁ m₂ : Model ℝ} (h₁ : EMSteps c samples n m m₁) (h₂ : EMSteps c samples' n m m₂) :
    m₁ = m₂ := by
  induction h₁ with
  | zero m => cases h₂; rfl
  | succ s _ ih =>
    cases h₂ with
    | succ s' r =>
      obtain rfl := emStep_unique c hd hp s s'
      exact ih r

theorem frequencies_unique (m : Model ℝ) (rnd rnd' : Nat → ℝ) {samples samples' : List Str} (hp : samples.Perm samples')
    {freqs freqs' : List Nat} (h : Frequencies m rnd samples freqs) (h' : Frequencies m rnd' samples' freqs') : freqs = freqs' := by
  obtain ⟨val, hv, rfl⟩ := h
  obtain ⟨val', hv', rfl⟩ := h'
  refine List.map_congr_left fun i _ => ?_
  rw [parCount_sum (fun _ => 0) (fun k s => if k < m.vocabSize then Pruner.contribution m rnd k s else 0)
      (fun c p hp => Pruner.worker_safe hp) hv i,
    parCount_sum (fun _ => 0) (fun k s => if k < m.vocabSize then Pruner.contribution m rnd' k s else 0)
      (fun c p hp => Pruner.worker_safe hp) hv' i, (hp.map _).sum_eq]
  congr 1
  refine List.map_congr_left fun s _ => ?_
  have : m.encode s zero rnd = m.encode s zero rnd' := by
    unfold Model.encode Model.encodeR
    rw [Model.encodeBytes_rnd (by show decide ((0 : ℝ) ≤ 0) = true; simp) rnd rnd']
  unfold Pruner.contribution
  rw [this]

theorem segmentTokens_rnd {F : Type} [TrainOps F] (hz : lt (zero : F) zero = false) (heap : Heap F) (m : Model F) (rnd rnd' : Nat → F)
    (fuel : Nat) : ∀ (ts : List (ScoredToken F)) (st : Lattice F × VecPool),
    segmentTokens heap m rnd fuel ts st = segmentTokens heap m rnd' fuel ts st := by
  intro ts
  induction ts with
  | nil => intro st; rfl
  | cons t ts ih =>
    intro st
    unfold segmentTokens
    cases h1 : st.1.from_ t.value st.2 with
    | error e => rfl
    | ok r =>
      simp only [res_bind_ok]
      rw [populateNodes_rnd m _ hz rnd rnd']
      cases h2 : m.populateNodes r.1 zero rnd' with
      | error e => rfl
      | ok q =>
        simp only [res_bind_ok]
        cases h3 : q.1.nbest heap 2 fuel with
        | error e => rfl
        | ok nb =>
          simp only [res_bind_ok]
          rw [ih]

theorem pruneStep_unique (c : Pruner ℝ) (std : Std ℝ) {samples samples' : List Str}
    (hp : samples.Perm samples') {m m₁ m₂ : Model ℝ} (h₁ : PruneStep c std samples m m₁) (h₂ : PruneStep c std samples' m m₂) :
    m₁ = m₂ := by
  obtain ⟨r₁, f₁, v₁, k₁, e₁, g₁, rfl⟩ := h₁
  obtain ⟨r₂, f₂, v₂, k₂, e₂, g₂, rfl⟩ := h₂
  obtain rfl := frequencies_unique m r₁ r₂ hp e₁ e₂
  have a := g₁ (max k₁ k₂) (le_max_left ..)
  have b := g₂ (max k₁ k₂) (le_max_right ..)
  have hz : lt (zero : ℝ) zero = false := by show decide ((0 : ℝ) < 0) = false; simp
  unfold pruneVocab at a b
  rw [segmentTokens_rnd hz std.heap m r₁ r₂, hp.length_eq, b] at a
  cases a
  rfl

theorem pass_unique (c : Pruner ℝ) (std : Std ℝ) (hd : lt zero c.dropout = false) {samples samples' : List Str}
    (hp : samples.Perm samples') {m m₁ m₂ : Model ℝ} (h₁ : Pass c std samples m m₁) (h₂ : Pass c std samples' m m₂) : m₁ = m₂ := by
  obtain ⟨_, n₁, a₁, b₁⟩ := h₁
  obtain ⟨_, n₂, a₂, b₂⟩ := h₂
  obtain rfl := emSteps_unique c hd hp a₁ a₂
  exact pruneStep_unique c std hp b₁ b₂

theorem returns_unique (c : Pruner ℝ) (std : Std ℝ) (hd : lt zero c.dropout = false) {samples samples' : List Str}
    (hp : samples.Perm samples') {m m₁ m₂ : Model ℝ} (h₁ : Returns c std samples m m₁) (h₂ : Returns c std samples' m m₂) :
    m₁ = m₂ := by
  obtain ⟨s₁, d₁⟩ := h₁
  obtain ⟨s₂, d₂⟩ := h₂
  induction s₁ using Relation.ReflTransGen.head_induction_on with
  | refl =>
    rcases Relation.ReflTransGen.cases_head s₂ with e | ⟨n, hn, _⟩
    · exact e
    · exact absurd hn.1 d₁
  | head hn _ ih =>
    rcases Relation.ReflTransGen.cases_head s₂ with e | ⟨n, hn', r⟩
    · exact absurd (e ▸ hn.1) d₂
    · obtain rfl := pass_unique c std hd hp hn hn'
      exact ih r

end Pruner
end Tokengeex
