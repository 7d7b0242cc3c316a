import Verif.Props.Datagen
import Mathlib.Data.List.Perm.Basic
/-
C93: the infilling samples of scripts/datagen.py.
-/
namespace Tokengeex
open Spec Scripts

theorem popRandom_some {α : Type} {l l' : List α} {n : Nat} {a : α} (h : popRandom l n = some (a, l')) :
    (a :: l').Perm l := by
  unfold popRandom at h
  cases hx : l[n % l.length]? with
  | none => rw [hx] at h; cases h
  | some b =>
    rw [hx] at h
    simp only [Option.some.injEq, Prod.mk.injEq] at h
    obtain ⟨rfl, rfl⟩ := h
    obtain ⟨hlt, e⟩ := List.getElem?_eq_some_iff.1 hx
    rw [← e]
    exact List.getElem_cons_eraseIdx_perm hlt

theorem popRandom_none {α : Type} {l : List α} {n : Nat} (h : popRandom l n = none) : l = [] := by
  cases l with
  | nil => rfl
  | cons b l =>
    unfold popRandom at h
    rw [List.getElem?_eq_getElem (Nat.mod_lt _ (by simp))] at h
    cases h

theorem chunks_flatten (size : Nat) (hs : 0 < size) (s : Str) : (chunks size s).flatten = s := by
  have key : ∀ n, ((List.range n).map fun i => (s.drop (i * size)).take size).flatten = s.take (n * size) := by
    intro n
    induction n with
    | zero => simp
    | succ n ih =>
      rw [List.range_succ, List.map_append, List.flatten_append, ih, Nat.succ_mul]
      simp [List.take_add]
  unfold chunks
  rw [key, List.take_of_length_le]
  have := Nat.lt_div_mul_add (a := s.length + size - 1) hs
  omega

theorem chunks_length_le (size : Nat) (s : Str) : ∀ c ∈ chunks size s, c.length ≤ size := by
  intro c hc
  obtain ⟨i, _, rfl⟩ := List.mem_map.1 hc
  rw [List.length_take]
  omega

theorem chunks_dropLast (size : Nat) (hs : 0 < size) (s : Str) : ∀ c ∈ (chunks size s).dropLast, c.length = size := by
  intro c hc
  unfold chunks at hc
  rw [← List.map_dropLast] at hc
  obtain ⟨i, hi, rfl⟩ := List.mem_map.1 hc
  have hr : ∀ m, (List.range m).dropLast = List.range (m - 1) := by
    intro m
    cases m with
    | zero => rfl
    | succ m => rw [List.range_succ, List.dropLast_concat]; rfl
  rw [hr] at hi
  have hi := List.mem_range.1 hi
  rw [List.length_take, List.length_drop]
  have h1 : (i + 2) * size ≤ (s.length + size - 1) := (Nat.le_div_iff_mul_le hs).1 (by omega)
  rw [Nat.add_mul] at h1
  omega

theorem chunks_few {l : Nat} : (l + max 32 (min (l / 10) 128) - 1) / max 32 (min (l / 10) 128) < 10 ↔ l ≤ 288 := by
  have hpos : 0 < max 32 (min (l / 10) 128) := by omega
  rw [Nat.div_lt_iff_lt_mul hpos]
  omega

theorem shuffleChunks_some (rnd : Nat → Nat) : ∀ (n : Nat) (cs : List Str) (k : Nat) (content content' : Str) (k' : Nat),
    shuffleChunks rnd n cs k content = some (content', k') →
    ∃ chosen others, (chosen ++ others).Perm cs ∧ chosen.length = n + 1 ∧ content' = content ++ List.intercalate ['\x7f'] chosen := by
  intro n
  induction n with
  | zero =>
    intro cs k content content' k' h
    rw [shuffleChunks] at h
    cases hx : popRandom cs (rnd k) with
    | none => rw [hx] at h; cases h
    | some p =>
      obtain ⟨c, cs'⟩ := p
      rw [hx] at h
      simp only [Option.some.injEq, Prod.mk.injEq] at h
      exact ⟨[c], cs', popRandom_some hx, rfl, by rw [← h.1, intercalate_single]⟩
  | succ n ih =>
    intro cs k content content' k' h
    rw [shuffleChunks] at h
    cases hx : popRandom cs (rnd k) with
    | none => rw [hx] at h; cases h
    | some p =>
      obtain ⟨c, cs'⟩ := p
      rw [hx] at h
      obtain ⟨chosen, others, h1, h2, h3⟩ := ih _ _ _ _ _ h
      refine ⟨c :: chosen, others, (List.Perm.cons c h1).trans (popRandom_some hx), by simp [h2], ?_⟩
      cases chosen with
      | nil => simp at h2
      | cons d ds => rw [intercalate_cons_cons, h3]; simp

theorem shuffleChunks_ok (rnd : Nat → Nat) : ∀ (n : Nat) (cs : List Str) (k : Nat) (content : Str), n < cs.length →
    shuffleChunks rnd n cs k content ≠ none := by
  intro n
  induction n with
  | zero =>
    intro cs k content hn h
    rw [shuffleChunks] at h
    cases hx : popRandom cs (rnd k) with
    | none => rw [popRandom_none hx] at hn; simp at hn
    | some p => rw [hx] at h; cases h
  | succ n ih =>
    intro cs k content hn h
    rw [shuffleChunks] at h
    cases hx : popRandom cs (rnd k) with
    | none => rw [popRandom_none hx] at hn; simp at hn
    | some p =>
      obtain ⟨c, cs'⟩ := p
      rw [hx] at h
      have := (popRandom_some hx).length_eq
      exact ih cs' _ _ (by simp at this; omega) h

theorem infillOne_spec (rnd : Nat → Nat) : ∀ (n : Nat) (pool : List Str) (k : Nat) (content : Str),
    (infillOne rnd n pool k content = none ∧ pool.length < n) ∨
    ∃ pool' k' content' used, infillOne rnd n pool k content = some (pool', k', content ++ content') ∧
      (used ++ pool').Perm pool ∧ used.length = n ∧ MadeFrom used content' := by
  intro n
  induction n with
  | zero =>
    intro pool k content
    right
    exact ⟨pool, k, [], [], by simp [infillOne], by simp, rfl, [], .nil, rfl⟩
  | succ n ih =>
    intro pool k content
    rw [infillOne]
    cases hx : popRandom pool (rnd k) with
    | none => left; rw [popRandom_none hx]; simp
    | some p =>
      obtain ⟨sample, pool1⟩ := p
      have hperm := popRandom_some hx
      have hlen := hperm.length_eq
      simp only [List.length_cons] at hlen
      dsimp only
      have hcl : (chunks (max 32 (min (sample.length / 10) 128)) sample).length < 10 ↔ sample.length ≤ 288 := by
        rw [← chunks_few]; simp [chunks]
      by_cases hc : (chunks (max 32 (min (sample.length / 10) 128)) sample).length < 10
      · rw [if_pos hc]
        rcases ih pool1 (k + 1) content with ⟨h1, h2⟩ | ⟨pool', k', content', used, h1, h2, h3, pieces, h4, h5⟩
        · left; exact ⟨h1, by omega⟩
        · right
          refine ⟨pool', k', content', sample :: used, h1, ?_, by simp [h3], [] :: pieces, .cons (.inl ⟨hcl.1 hc, rfl⟩) h4, by simp [h5]⟩
          exact (List.Perm.cons sample h2).trans hperm
      · rw [if_neg hc]
        cases hy : shuffleChunks rnd 9 (chunks (max 32 (min (sample.length / 10) 128)) sample) (k + 1) content with
        | none => exact absurd hy (shuffleChunks_ok rnd 9 _ _ _ (by omega))
        | some q =>
          obtain ⟨content1, k1⟩ := q
          obtain ⟨chosen, others, g1, g2, g3⟩ := shuffleChunks_some rnd 9 _ _ _ _ _ hy
          dsimp only
          rcases ih pool1 k1 content1 with ⟨h1, h2⟩ | ⟨pool', k', content', used, h1, h2, h3, pieces, h4, h5⟩
          · left; exact ⟨h1, by omega⟩
          · right
            refine ⟨pool', k', List.intercalate ['\x7f'] chosen ++ content', sample :: used, ?_, ?_, by simp [h3],
              List.intercalate ['\x7f'] chosen :: pieces, .cons (.inr ⟨?_, ?_⟩) h4, by simp [h5]⟩
            · rw [h1, g3]; simp
            · exact (List.Perm.cons sample h2).trans hperm
            · have := mt hcl.2 hc; omega
            · exact ⟨chunks (max 32 (min (sample.length / 10) 128)) sample, chosen, others, max 32 (min (sample.length / 10) 128),
                by omega, by omega, chunks_flatten _ (by omega) _, chunks_dropLast _ (by omega) _, chunks_length_le _ _, g1, g2, rfl⟩

theorem infillLoop_spec (rnd : Nat → Nat) (test train : Nat) : ∀ (fuel : Nat) (pool : List Str) (k : Nat) (st : Splits)
    (a b : List Str), pool.length < fuel → Writing test train st a b →
    (infillLoop rnd test train fuel pool k st = none ∧ ∃ groups contents left, (groups.flatten ++ left).Perm pool ∧
      (∀ g ∈ groups, g.length = 4) ∧ List.Forall₂ MadeFrom groups contents ∧ left.length < 4 ∧
      (contents = [] ∨ (fileOf (a ++ b ++ contents.dropLast)).length < test + train)) ∨
    (∃ st' groups contents left a' b' last, infillLoop rnd test train fuel pool k st = some st' ∧
      (groups.flatten ++ left).Perm pool ∧ (∀ g ∈ groups, g.length = 4) ∧ List.Forall₂ MadeFrom groups (contents ++ [last]) ∧
      QuotaSplit test train (a ++ b ++ contents ++ [last]) a' b' [last] ∧ st'.test = fileOf a' ∧ st'.train = fileOf b' ∧
      test + train ≤ (fileOf a').length + (fileOf b').length) := by
  intro fuel
  induction fuel with
  | zero => intro pool k st a b h _; omega
  | succ fuel ih =>
    intro pool k st a b hf hw
    rw [infillLoop]
    rcases infillOne_spec rnd 4 pool k [] with ⟨h1, h2⟩ | ⟨pool', k', content, used, h1, h2, h3, h4⟩
    · left
      rw [h1]
      exact ⟨rfl, [], [], pool, by simp, by simp, .nil, h2, .inl rfl⟩
    · rw [h1]
      simp only [List.nil_append]
      cases hx : writeSample test train st content with
      | none =>
        right
        have hfull := writeSample_none hx
        refine ⟨st, [used], [], pool', a, b, content, rfl, by simpa using h2, by simpa using h3, .cons h4 .nil, ?_, hw.testFile,
          hw.trainFile, by rw [← hw.written]; exact hfull⟩
        simpa using hw.done [content] (.inl hfull)
      | some st' =>
        have hlen := h2.length_eq
        rw [List.length_append] at hlen
        have hlt : st.written < test + train := by
          by_contra hge
          unfold writeSample at hx
          rw [if_neg (by omega), if_neg (by omega)] at hx
          cases hx
        have hab : (fileOf (a ++ b)).length < test + train := by
          rw [fileOf_append, List.length_append, ← hw.written]; exact hlt
        have step : ∃ a1 b1, a1 ++ b1 = a ++ b ++ [content] ∧ Writing test train st' a1 b1 := by
          rcases writeSample_some hw hx with ⟨rfl, h⟩ | ⟨_, h⟩
          · exact ⟨_, _, by simp, h⟩
          · exact ⟨_, _, by simp, h⟩
        obtain ⟨a1, b1, e1, hw1⟩ := step
        have hperm : ∀ {groups : List (List Str)} {left}, (groups.flatten ++ left).Perm pool' →
            ((used :: groups).flatten ++ left).Perm pool := by
          intro groups left h
          rw [List.flatten_cons, List.append_assoc]
          exact (List.Perm.append_left used h).trans h2
        dsimp only
        rcases ih pool' k' st' a1 b1 (by omega) hw1 with ⟨g0, groups, contents, left, g1, g2, g3, g4, g5⟩ |
          ⟨st2, groups, contents, left, a', b', last, g0, g1, g2, g3, g4, g5, g6, g7⟩
        · left
          refine ⟨g0, used :: groups, content :: contents, left, hperm g1, ?_, .cons h4 g3, g4, .inr ?_⟩
          · intro g hg
            rcases List.mem_cons.1 hg with rfl | hg
            · exact h3
            · exact g2 g hg
          · cases contents with
            | nil => simpa using hab
            | cons c cs =>
              rcases g5 with h | h
              · simp at h
              · rw [e1] at h
                simpa using h
        · right
          refine ⟨st2, used :: groups, content :: contents, left, a', b', last, g0, hperm g1, ?_, .cons h4 g3, ?_, g5, g6, g7⟩
          · intro g hg
            rcases List.mem_cons.1 hg with rfl | hg
            · exact h3
            · exact g2 g hg
          · rw [e1] at g4
            simpa using g4

/-- The samples used come from the training files. -/
theorem infillPool_mem {trainFiles : List Str} {s : Str} (h : s ∈ infillPool trainFiles) :
    ∃ text ∈ trainFiles, ∃ parts, Parts '\x00' text parts ∧ s ∈ parts := by
  unfold infillPool at h
  obtain ⟨text, ht, hs⟩ := List.mem_flatMap.1 h
  exact ⟨text, ht, _, splitOn_parts '\x00' text, List.mem_of_mem_take hs⟩

/-- **C93** (which samples) Of each training file the first fifth of the samples can be used, rounded down, and nothing
else. -/
theorem C93_pool (trainFiles : List Str) (samples : List (List Str)) (h : List.Forall₂ (Parts '\x00') trainFiles samples) :
    ∃ firsts, infillPool trainFiles = firsts.flatten ∧
      List.Forall₂ (fun all first => first <+: all ∧ 5 * first.length ≤ all.length ∧ all.length < 5 * first.length + 5)
        samples firsts := by
  induction h with
  | nil => exact ⟨[], rfl, .nil⟩
  | @cons text all files rest h1 _ ih =>
    obtain ⟨firsts, h2, h3⟩ := ih
    refine ⟨all.take (all.length / 5) :: firsts, ?_, .cons ⟨List.take_prefix _ _, ?_, ?_⟩ h3⟩
    · rw [List.flatten_cons, ← h2]
      unfold infillPool
      rw [List.flatMap_cons, splitOn_of_parts h1]
    · rw [List.length_take]; omega
    · rw [List.length_take]; omega

/-- **C93** If `generate_infilling` ends normally it has filled both quotas.  Each text it writes is made from four samples of
the training files, and no sample is used twice; one more text is made and thrown away. -/
theorem C93_infilling (rnd : Nat → Nat) (train test : Nat) (trainFiles : List Str) (st : Splits)
    (h : generateInfilling rnd train test trainFiles = some st) :
    ∃ groups contents left inTest inTrain last, (groups.flatten ++ left).Perm (infillPool trainFiles) ∧
      (∀ g ∈ groups, g.length = 4) ∧ List.Forall₂ MadeFrom groups (contents ++ [last]) ∧
      contents = inTest ++ inTrain ∧ QuotaSplit test train (contents ++ [last]) inTest inTrain [last] ∧
      st.test = fileOf inTest ∧ st.train = fileOf inTrain ∧ test + train ≤ st.test.length + st.train.length := by
  unfold generateInfilling at h
  rcases infillLoop_spec rnd test train ((infillPool trainFiles).length + 1) (infillPool trainFiles) 0 ⟨[], [], 0⟩ [] []
    (by omega) (Writing.start test train) with ⟨h1, _⟩ | ⟨st', groups, contents, left, a', b', last, g0, g1, g2, g3, g4, g5, g6, g7⟩
  · rw [h1] at h; cases h
  · rw [g0] at h
    cases h
    have e := g4.all
    simp only [List.nil_append] at e g4
    exact ⟨groups, contents, left, a', b', last, g1, g2, g3, List.append_cancel_right e, g4, g5, g6, by rw [g5, g6]; exact g7⟩

/-- **C93** It fails only for want of samples: all but at most three of them have been used, and the quotas not reached. -/
theorem C93_fails (rnd : Nat → Nat) (train test : Nat) (trainFiles : List Str)
    (h : generateInfilling rnd train test trainFiles = none) :
    ∃ groups contents left, (groups.flatten ++ left).Perm (infillPool trainFiles) ∧ (∀ g ∈ groups, g.length = 4) ∧
      List.Forall₂ MadeFrom groups contents ∧ left.length < 4 ∧
      (contents = [] ∨ (fileOf contents.dropLast).length < test + train) := by
  unfold generateInfilling at h
  rcases infillLoop_spec rnd test train ((infillPool trainFiles).length + 1) (infillPool trainFiles) 0 ⟨[], [], 0⟩ [] []
    (by omega) (Writing.start test train) with ⟨_, groups, contents, left, g1, g2, g3, g4, g5⟩ | ⟨st', _, _, _, _, _, _, g0, _⟩
  · exact ⟨groups, contents, left, g1, g2, g3, g4, by simpa using g5⟩
  · rw [g0] at h; cases h

/-- **C93** So with fewer than four usable samples it fails even if nothing is asked for. -/
theorem C93_few (rnd : Nat → Nat) (train test : Nat) (trainFiles : List Str) (h : (infillPool trainFiles).length < 4) :
    generateInfilling rnd train test trainFiles = none := by
  cases hx : generateInfilling rnd train test trainFiles with
  | none => rfl
  | some st =>
    obtain ⟨groups, contents, left, _, _, last, g1, g2, g3, _⟩ := C93_infilling rnd train test trainFiles st hx
    have hl := g1.length_eq
    cases groups with
    | nil => have := g3.length_eq; simp at this
    | cons g gs =>
      have := g2 g List.mem_cons_self
      simp only [List.flatten_cons, List.length_append] at hl
      omega

/-- **C93** The test samples are not held out: everything in the test file is made from samples of the training files. -/
theorem C93_leak (rnd : Nat → Nat) (train test : Nat) (trainFiles : List Str) (st : Splits)
    (h : generateInfilling rnd train test trainFiles = some st) :
    ∃ inTest, st.test = fileOf inTest ∧ ∀ content ∈ inTest, ∃ samples, samples.length = 4 ∧ MadeFrom samples content ∧
      ∀ s ∈ samples, ∃ text ∈ trainFiles, ∃ parts, Parts '\x00' text parts ∧ s ∈ parts := by
  obtain ⟨groups, contents, left, inTest, inTrain, last, g1, g2, g3, g4, _, g6, _⟩ := C93_infilling rnd train test trainFiles st h
  refine ⟨inTest, g6, ?_⟩
  intro content hc
  have hmem : content ∈ contents ++ [last] := by rw [g4]; simp [hc]
  have : ∀ {gs : List (List Str)} {cs : List Str}, List.Forall₂ MadeFrom gs cs → content ∈ cs → ∃ g ∈ gs, MadeFrom g content := by
    intro gs cs hf
    induction hf with
    | nil => intro h; simp at h
    | cons h1 _ ih =>
      intro h
      rcases List.mem_cons.1 h with rfl | h
      · exact ⟨_, List.mem_cons_self, h1⟩
      · obtain ⟨g, hg, hm⟩ := ih h
        exact ⟨g, List.mem_cons_of_mem _ hg, hm⟩
  obtain ⟨g, hg, hm⟩ := this g3 hmem
  refine ⟨g, g2 g hg, hm, ?_⟩
  intro s hs
  apply infillPool_mem
  exact g1.mem_iff.1 (List.mem_append_left _ (List.mem_flatten.2 ⟨g, hg, hs⟩))

/-- Non-vacuity: forty-one samples, of which eight are used; one text fills the quota and another is thrown away. -/
example : generateInfilling (fun k => k) 0 1 [List.replicate 40 '\x00'] = some ⟨[0], [], 1⟩ := by decide
example : shuffleChunks (fun k => k + 5) 2 [['a'], ['b', 'c'], ['d'], ['e']] 0 ['x'] =
    some (['x', 'b', 'c', '\x7f', 'a', '\x7f', 'e'], 3) := by decide
example : generateInfilling (fun k => k) 0 2 [List.replicate 40 '\x00'] = none := by decide

example : infillPool [List.replicate 9 '\x00', List.replicate 8 '\x00'] = [[], [], []] := by decide

end Tokengeex
