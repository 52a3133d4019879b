import Verif.Model.Meters
import Verif.Spec.Meters
import Mathlib.Tactic.Linarith
import Mathlib.Tactic.FieldSimp
import Mathlib.Tactic.Ring
import Mathlib.Tactic.Push
import Mathlib.Algebra.Order.Field.Rat
import Mathlib.Algebra.BigOperators.Group.List.Basic
import Mathlib.Data.List.GetD

/-!
# C104: the examples report the accuracy of the predictions
-/

namespace CrypTen.Meters

/-! ## The k best classes -/

theorem possible_of_mem {row : List ℚ} {k k' : ℕ} {idx : List ℕ} (h : IsTopk row k idx) {t : ℕ} (ht : t ∈ idx.take k') : Possible k' (row, t) := by
  obtain ⟨p, hp, rfl⟩ := List.getElem_of_mem ht
  have hp' : p < k' ∧ p < idx.length := by simpa using hp
  have e : (idx.take k')[p] = idx[p]'hp'.2 := by simp
  rw [e]
  refine ⟨h.range _ (List.getElem_mem _), lt_of_le_of_lt (b := p) ?_ hp'.1⟩
  refine le_trans (Finset.card_le_card (t := (idx.take p).toFinset) ?_) (le_trans (List.toFinset_card_le _) (by simp))
  intro j hj
  simp only [Finset.mem_filter, Finset.mem_range] at hj
  rw [List.mem_toFinset]
  by_contra hn
  have hle : row.getD j 0 ≤ row.getD (idx[p]'hp'.2) 0 := by
    by_cases hm : j ∈ idx
    · obtain ⟨q, hq, rfl⟩ := List.getElem_of_mem hm
      have hpq : p ≤ q := by
        by_contra hlt
        exact hn (List.mem_take_iff_getElem.2 ⟨q, by omega, rfl⟩)
      rcases hpq.eq_or_lt with rfl | hlt
      · exact le_refl _
      · exact List.pairwise_iff_getElem.1 h.sorted p q hp'.2 hq hlt
    · exact h.top _ (List.getElem_mem _) j hj.1 hm
  exact absurd hj.2 (not_lt.2 hle)

theorem mem_of_sure {row : List ℚ} {k k' : ℕ} {idx : List ℕ} (h : IsTopk row k idx) (hk : k' ≤ k) {t : ℕ} (ht : Sure k' (row, t)) : t ∈ idx.take k' := by
  obtain ⟨hr, hc⟩ := ht
  by_contra hn
  have hsub : insert t (idx.take k').toFinset ⊆ (Finset.range row.length).filter fun j => row.getD t 0 ≤ row.getD j 0 := by
    intro j hj
    rw [Finset.mem_insert, List.mem_toFinset] at hj
    rw [Finset.mem_filter, Finset.mem_range]
    rcases hj with rfl | hj
    · exact ⟨hr, le_refl _⟩
    · have hj' := List.mem_of_mem_take hj
      refine ⟨h.range j hj', ?_⟩
      by_cases hm : t ∈ idx
      · obtain ⟨p, hp, e⟩ := List.mem_take_iff_getElem.1 hj
        obtain ⟨q, hq, rfl⟩ := List.getElem_of_mem hm
        subst e
        have hpq : p < q := by
          by_contra hlt
          exact hn (List.mem_take_iff_getElem.2 ⟨q, by omega, rfl⟩)
        exact List.pairwise_iff_getElem.1 h.sorted p q (by omega) hq hpq
      · exact h.top j hj' t hr hm
  have hcard := Finset.card_le_card hsub
  rw [Finset.card_insert_of_notMem (by rwa [List.mem_toFinset]), List.toFinset_card_of_nodup (h.nodup.sublist (List.take_sublist _ _)), List.length_take,
    h.length, min_eq_left hk] at hcard
  have hc' : ((Finset.range row.length).filter fun j => row.getD t 0 ≤ row.getD j 0).card ≤ k' := hc
  omega

theorem sure_of_possible {k : ℕ} {s : List ℚ × ℕ} (hs : NoTies s) (h : Possible k s) : Sure k s := by
  obtain ⟨hr, hc⟩ := h
  refine ⟨hr, ?_⟩
  have hsub : ((Finset.range s.1.length).filter fun j => s.1.getD s.2 0 ≤ s.1.getD j 0) ⊆
      insert s.2 ((Finset.range s.1.length).filter fun j => s.1.getD s.2 0 < s.1.getD j 0) := by
    intro j hj
    rw [Finset.mem_filter, Finset.mem_range] at hj
    rw [Finset.mem_insert, Finset.mem_filter, Finset.mem_range]
    rcases hj.2.eq_or_lt with e | hlt
    · left
      rw [List.getD_eq_getElem _ _ hr, List.getD_eq_getElem _ _ hj.1] at e
      exact ((List.Nodup.getElem_inj_iff hs).1 e).symm
    · exact Or.inr ⟨hj.1, hlt⟩
  have := Finset.card_le_card hsub
  have := Finset.card_insert_le s.2 ((Finset.range s.1.length).filter fun j => s.1.getD s.2 0 < s.1.getD j 0)
  omega

/-! ## Counting -/

theorem take_eq_map (idx : List ℕ) (k : ℕ) (hk : k ≤ idx.length) : idx.take k = (List.range k).map fun r => idx.getD r 0 := by
  apply List.ext_getElem
  · simp [hk]
  · intro i h1 h2
    simp only [List.length_take, List.length_map, List.length_range] at h1 h2
    simp only [List.getElem_take, List.getElem_map, List.getElem_range]
    rw [List.getD_eq_getElem _ _ (by omega)]

theorem sum_indicator (idx : List ℕ) (k t : ℕ) (hk : k ≤ idx.length) (hn : idx.Nodup) :
    ((List.range k).map fun r => if (idx.getD r 0 == t) = true then 1 else 0).sum = if t ∈ idx.take k then 1 else 0 := by
  have hn' : (idx.take k).Nodup := hn.sublist (List.take_sublist _ _)
  have e := hn'.count (a := t)
  rw [← e, take_eq_map idx k hk]
  generalize List.range k = l
  induction l with
  | nil => simp
  | cons a l ih => simp only [List.map_cons, List.sum_cons, List.count_cons, ih]; omega

theorem sum_countP {α : Type} (k : ℕ) (S : List α) (f : α → ℕ → Bool) :
    ((List.range k).map fun r => S.countP fun s => f s r).sum = (S.map fun s => ((List.range k).map fun r => if f s r = true then 1 else 0).sum).sum := by
  induction S with
  | nil => simp
  | cons s S ih =>
    simp only [List.countP_cons, List.map_cons, List.sum_cons, List.sum_map_add]
    rw [ih]; omega

theorem countP_eq_sum {α : Type} (S : List α) (p : α → Prop) [DecidablePred p] : S.countP (fun s => decide (p s)) = (S.map fun s => if p s then 1 else 0).sum := by
  induction S with
  | nil => simp
  | cons s S ih => simp only [List.countP_cons, List.map_cons, List.sum_cons, ih, decide_eq_true_eq]; omega

theorem rows_enough {output : List (List ℚ)} {maxk : ℕ} (h : ∀ row ∈ output, maxk ≤ row.length) : output.any (fun row => decide (row.length < maxk)) = false := by
  rw [List.any_eq_false]
  intro row hr
  have := h row hr
  simp; omega

theorem correctness_eq {topk : ℕ → List ℚ → List ℕ} {maxk : ℕ} {output : List (List ℚ)} {target : List ℕ} (hlen : target.length = output.length)
    (hrows : ∀ row ∈ output, maxk ≤ row.length) :
    correctness topk maxk output target = some ((List.range maxk).map fun r => (output.zip target).map fun s => (topk maxk s.1).getD r 0 == s.2) := by
  rw [correctness, rows_enough hrows]
  simp only [Bool.false_eq_true, if_false, expandTarget, hlen, if_true, Option.map_some, List.map_map]
  congr 2
  funext r
  simp only [Function.comp]
  rw [List.zipWith_map_left, List.zip, List.map_zipWith]
  rfl

theorem count_eq {topk : ℕ → List ℚ → List ℕ} (htop : Topk topk) {maxk k : ℕ} (hk : k ≤ maxk) {S : List (List ℚ × ℕ)} (hrows : ∀ s ∈ S, maxk ≤ s.1.length) :
    countCorrect k ((List.range maxk).map fun r => S.map fun s => (topk maxk s.1).getD r 0 == s.2) =
      S.countP fun s => decide (s.2 ∈ (topk maxk s.1).take k) := by
  rw [countCorrect, ← List.map_take, List.take_range, min_eq_left hk, List.count_flatten, List.map_map]
  have e : (List.count true ∘ fun r => S.map fun s => (topk maxk s.1).getD r 0 == s.2) = fun r => S.countP fun s => (topk maxk s.1).getD r 0 == s.2 := by
    funext r
    simp only [Function.comp, List.count, List.countP_map]
    congr 1
    funext s
    simp
  rw [e, sum_countP, countP_eq_sum]
  congr 1
  apply List.map_congr_left
  intro s hs
  have h := htop maxk s.1 (hrows s hs)
  exact sum_indicator _ _ _ (by rw [h.length]; exact hk) h.nodup

theorem countP_le {α : Type} (S : List α) (p q : α → Prop) [DecidablePred p] [DecidablePred q] (h : ∀ s ∈ S, p s → q s) :
    (S.countP fun s => decide (p s)) ≤ S.countP fun s => decide (q s) := by
  apply List.countP_mono_left
  intro s hs hp
  simpa using h s hs (by simpa using hp)

/-- How many samples the code counts for `k`. -/
def hits (topk : ℕ → List ℚ → List ℕ) (maxk k : ℕ) (S : List (List ℚ × ℕ)) : ℕ := S.countP fun s => decide (s.2 ∈ (topk maxk s.1).take k)

theorem hits_bounds {topk : ℕ → List ℚ → List ℕ} (htop : Topk topk) {maxk k : ℕ} (hk : k ≤ maxk) {S : List (List ℚ × ℕ)} (hrows : ∀ s ∈ S, maxk ≤ s.1.length) :
    (S.countP fun s => decide (Sure k s)) ≤ hits topk maxk k S ∧ hits topk maxk k S ≤ S.countP fun s => decide (Possible k s) :=
  ⟨countP_le S _ _ fun s hs h => mem_of_sure (htop maxk s.1 (hrows s hs)) hk h,
   countP_le S _ _ fun s hs h => possible_of_mem (htop maxk s.1 (hrows s hs)) h⟩

theorem percent_mono {p q : List ℚ × ℕ → Prop} [DecidablePred p] [DecidablePred q] {S : List (List ℚ × ℕ)} {n : ℕ}
    (h : (S.countP fun s => decide (p s)) ≤ n ∧ n ≤ S.countP fun s => decide (q s)) :
    percent p S ≤ 100 * (n : ℚ) / (S.length : ℕ) ∧ 100 * (n : ℚ) / (S.length : ℕ) ≤ percent q S := by
  have h1 : ((S.countP fun s => decide (p s) : ℕ) : ℚ) ≤ n := by exact_mod_cast h.1
  have h2 : (n : ℚ) ≤ ((S.countP fun s => decide (q s) : ℕ) : ℚ) := by exact_mod_cast h.2
  have h0 : (0 : ℚ) ≤ (S.length : ℕ) := by positivity
  constructor
  · exact div_le_div_of_nonneg_right (by linarith) h0
  · exact div_le_div_of_nonneg_right (by linarith) h0

theorem percent_congr {p q : List ℚ × ℕ → Prop} [DecidablePred p] [DecidablePred q] {S : List (List ℚ × ℕ)} (h : ∀ s ∈ S, (p s ↔ q s)) : percent p S = percent q S := by
  unfold percent
  rw [le_antisymm (countP_le S p q fun s hs => (h s hs).1) (countP_le S q p fun s hs => (h s hs).2)]

/-! ## `accuracy` -/

theorem accuracy_eq {topk : ℕ → List ℚ → List ℕ} (htop : Topk topk) {output : List (List ℚ)} {target : List ℕ} {ks : List ℕ} {maxk : ℕ} (hmax : ks.max? = some maxk)
    (hlen : target.length = output.length) (hne : output ≠ []) (hrows : ∀ row ∈ output, maxk ≤ row.length) :
    accuracy topk output target ks = some (ks.map fun k => 100 * (hits topk maxk k (output.zip target) : ℚ) / ((output.zip target).length : ℕ)) := by
  have h0 : output.length ≠ 0 := by simpa using hne
  have hz : (output.zip target).length = output.length := by simp [hlen]
  simp only [accuracy, hmax, correctness_eq hlen hrows, hlen]
  rw [if_neg (fun h => h0 h.2)]
  congr 1
  apply List.map_congr_left
  intro k hk
  have hkm : k ≤ maxk := (List.max?_eq_some_iff.1 hmax).2 k hk
  rw [count_eq htop hkm (fun s hs => hrows s.1 (List.of_mem_zip hs).1), hz, hits]
  ring

/-- `accuracy(output, target, topk)` returns, for every batch and every list of `k`, one number per `k`: the share of samples whose target is among the `k` best classes. Samples with equal scores may count or not. -/
theorem C104_accuracy {topk : ℕ → List ℚ → List ℕ} (htop : Topk topk) {output : List (List ℚ)} {target : List ℕ} {ks : List ℕ} (hks : ks ≠ [])
    (hlen : target.length = output.length) (hne : output ≠ []) (hrows : ∀ k ∈ ks, ∀ row ∈ output, k ≤ row.length) :
    ∃ res, accuracy topk output target ks = some res ∧
      List.Forall₂ (fun k r => percent (Sure k) (output.zip target) ≤ r ∧ r ≤ percent (Possible k) (output.zip target)) ks res := by
  obtain ⟨maxk, hmax⟩ : ∃ m, ks.max? = some m := by
    cases h : ks.max? with
    | none => exact absurd (List.max?_eq_none_iff.1 h) hks
    | some m => exact ⟨m, rfl⟩
  have hm := List.max?_eq_some_iff.1 hmax
  refine ⟨_, accuracy_eq htop hmax hlen hne (hrows maxk hm.1), ?_⟩
  rw [List.forall₂_map_right_iff, List.forall₂_same]
  intro k hk
  exact percent_mono (hits_bounds htop (hm.2 k hk) fun s hs => hrows maxk hm.1 s.1 (List.of_mem_zip hs).1)

/-- Without equal scores, the numbers are exact. -/
theorem C104_accuracy_exact {topk : ℕ → List ℚ → List ℕ} (htop : Topk topk) {output : List (List ℚ)} {target : List ℕ} {ks : List ℕ} (hks : ks ≠ [])
    (hlen : target.length = output.length) (hne : output ≠ []) (hrows : ∀ k ∈ ks, ∀ row ∈ output, k ≤ row.length) (hties : ∀ s ∈ output.zip target, NoTies s) :
    accuracy topk output target ks = some (ks.map fun k => percent (Possible k) (output.zip target)) := by
  obtain ⟨maxk, hmax⟩ : ∃ m, ks.max? = some m := by
    cases h : ks.max? with
    | none => exact absurd (List.max?_eq_none_iff.1 h) hks
    | some m => exact ⟨m, rfl⟩
  have hm := List.max?_eq_some_iff.1 hmax
  rw [accuracy_eq htop hmax hlen hne (hrows maxk hm.1)]
  congr 1
  apply List.map_congr_left
  intro k hk
  have hb := hits_bounds htop (hm.2 k hk) (S := output.zip target) fun s hs => hrows maxk hm.1 s.1 (List.of_mem_zip hs).1
  have he := countP_le (output.zip target) (Possible k) (Sure k) fun s hs => sure_of_possible (hties s hs)
  rw [percent, le_antisymm hb.2 (he.trans hb.1)]

/-! ## `AverageMeter` -/

theorem average_aux (l : List (ℚ × ℕ)) : ∀ m : AverageMeter,
    l.foldl (fun m p => m.call (.add p.1 p.2)) m = ⟨m.sum + (l.map fun p => p.1 * (p.2 : ℚ)).sum, m.count + (l.map Prod.snd).sum⟩ := by
  induction l with
  | nil => intro m; simp
  | cons p l ih =>
    intro m
    rw [List.foldl_cons, ih]
    simp only [AverageMeter.call, AverageMeter.add, List.map_cons, List.sum_cons]
    congr 1
    · ring
    · omega

/-- Whatever happened to the meter before, after `reset()` and any number of calls of `add(v, n)` the meter has the average of the values, each with its weight; it raises when there is nothing to average. -/
theorem C104_average (m : AverageMeter) (l : List (ℚ × ℕ)) :
    (l.foldl (fun m p => m.call (.add p.1 p.2)) (m.call .reset)).value =
      if (l.map Prod.snd).sum = 0 then none else some ((l.map fun p => p.1 * (p.2 : ℚ)).sum / ((l.map Prod.snd).sum : ℕ)) := by
  rw [average_aux]
  simp [AverageMeter.value, AverageMeter.call, AverageMeter.reset]

example : ([(3, 1), (0, 2)].foldl (fun m p => m.call (.add p.1 p.2)) (AverageMeter.call ⟨7, 7⟩ .reset)).value = some 1 := by
  rw [C104_average]; norm_num

/-! ## `validate` -/

theorem hits_append (topk : ℕ → List ℚ → List ℕ) (maxk k : ℕ) (S T : List (List ℚ × ℕ)) : hits topk maxk k (S ++ T) = hits topk maxk k S + hits topk maxk k T :=
  List.countP_append

theorem validateLoop_eq {topk : ℕ → List ℚ → List ℕ} (htop : Topk topk) : ∀ (bs : List (List (List ℚ) × List ℕ)) (ms : AverageMeter × AverageMeter),
    (∀ b ∈ bs, b.2.length = b.1.length ∧ b.1 ≠ [] ∧ ∀ row ∈ b.1, 5 ≤ row.length) →
    validateLoop topk ms bs = some (⟨ms.1.sum + 100 * hits topk 5 1 (allSamples bs), ms.1.count + (allSamples bs).length⟩,
      ⟨ms.2.sum + 100 * hits topk 5 5 (allSamples bs), ms.2.count + (allSamples bs).length⟩) := by
  intro bs
  induction bs with
  | nil => intro ms _; simp [validateLoop, allSamples, hits]
  | cons b bs ih =>
    obtain ⟨output, target⟩ := b
    intro ms h
    obtain ⟨hlen, hne, hrows⟩ := h _ (List.mem_cons_self ..)
    have hl : (output.zip target).length = output.length := by
      have : target.length = output.length := hlen
      simp [this]
    have h0 : (output.length : ℚ) ≠ 0 := by simpa using hne
    have e : accuracy topk output target [1, 5] = some [100 * (hits topk 5 1 (output.zip target) : ℚ) / ((output.zip target).length : ℕ),
        100 * (hits topk 5 5 (output.zip target) : ℚ) / ((output.zip target).length : ℕ)] :=
      accuracy_eq htop (ks := [1, 5]) (maxk := 5) (by rfl) hlen hne hrows
    simp only [validateLoop, e]
    rw [ih _ (fun b hb => h b (List.mem_cons_of_mem _ hb))]
    simp only [AverageMeter.add, allSamples, List.flatMap_cons, hits_append, List.length_append, hl]
    rw [div_mul_cancel₀ _ h0, div_mul_cancel₀ _ h0]
    push_cast
    simp only [mul_add, add_assoc]

theorem validate_eq {topk : ℕ → List ℚ → List ℕ} (htop : Topk topk) {bs : List (List (List ℚ) × List ℕ)} (h : GoodBatches bs) :
    validate topk bs = some (100 * (hits topk 5 1 (allSamples bs) : ℚ) / ((allSamples bs).length : ℕ), 100 * (hits topk 5 5 (allSamples bs) : ℚ) / ((allSamples bs).length : ℕ)) := by
  have h0 : (allSamples bs).length ≠ 0 := by
    obtain ⟨hne, hb⟩ := h
    cases bs with
    | nil => exact absurd rfl hne
    | cons b bs =>
      obtain ⟨hlen, hne, -⟩ := hb b (List.mem_cons_self ..)
      have : b.1.length ≠ 0 := by simpa using hne
      simp only [allSamples, List.flatMap_cons, List.length_append, List.length_zip, hlen]
      omega
  simp only [validate, validateLoop_eq htop bs _ h.2, AverageMeter.value, AverageMeter.reset, zero_add, if_neg h0]

theorem rows_all {bs : List (List (List ℚ) × List ℕ)} (h : GoodBatches bs) : ∀ s ∈ allSamples bs, 5 ≤ s.1.length := by
  intro s hs
  obtain ⟨b, hb, hs⟩ := List.mem_flatMap.1 hs
  exact (h.2 b hb).2.2 s.1 (List.of_mem_zip hs).1

/-- `validate` reports the top-1 and top-5 accuracy over all samples, whatever the batches are and however large each is. -/
theorem C104_validate {topk : ℕ → List ℚ → List ℕ} (htop : Topk topk) {bs : List (List (List ℚ) × List ℕ)} (h : GoodBatches bs) :
    ∃ top1 top5, validate topk bs = some (top1, top5) ∧
      (percent (Sure 1) (allSamples bs) ≤ top1 ∧ top1 ≤ percent (Possible 1) (allSamples bs)) ∧
      (percent (Sure 5) (allSamples bs) ≤ top5 ∧ top5 ≤ percent (Possible 5) (allSamples bs)) :=
  ⟨_, _, validate_eq htop h, percent_mono (hits_bounds htop (by omega) (rows_all h)), percent_mono (hits_bounds htop (by omega) (rows_all h))⟩

/-- Without equal scores both are exact. -/
theorem C104_validate_exact {topk : ℕ → List ℚ → List ℕ} (htop : Topk topk) {bs : List (List (List ℚ) × List ℕ)} (h : GoodBatches bs)
    (hties : ∀ s ∈ allSamples bs, NoTies s) : validate topk bs = some (percent (Possible 1) (allSamples bs), percent (Possible 5) (allSamples bs)) := by
  have hb (k : ℕ) (hk : k ≤ 5) := hits_bounds htop hk (rows_all h)
  have he (k : ℕ) := countP_le (allSamples bs) (Possible k) (Sure k) fun s hs => sure_of_possible (hties s hs)
  rw [validate_eq htop h, percent, percent, le_antisymm (hb 1 (by omega)).2 ((he 1).trans (hb 1 (by omega)).1), le_antisymm (hb 5 (by omega)).2 ((he 5).trans (hb 5 (by omega)).1)]

/-! ## `AccuracyMeter` -/

theorem add_one {topk : ℕ → List ℚ → List ℕ} (m : AccuracyMeter) (s : List ℚ × ℕ) (h : m.maxk ≤ s.1.length) :
    m.add topk [s.1] [s.2] = some { m with values := m.values ++ [(List.range m.maxk).map fun r => [(topk m.maxk s.1).getD r 0 == s.2]] } := by
  have e := correctness_eq (topk := topk) (maxk := m.maxk) (output := [s.1]) (target := [s.2]) rfl (by simpa using h)
  rw [AccuracyMeter.add, e]
  simp [List.take_of_length_le]

theorem imagenetLoop_eq {topk : ℕ → List ℚ → List ℕ} : ∀ (ss : List (List ℚ × ℕ)) (m : AccuracyMeter), (∀ s ∈ ss, m.maxk ≤ s.1.length) →
    imagenetLoop topk m ss = some { m with values := m.values ++ ss.map fun s => (List.range m.maxk).map fun r => [(topk m.maxk s.1).getD r 0 == s.2] } := by
  intro ss
  induction ss with
  | nil => intro m _; simp [imagenetLoop]
  | cons s ss ih =>
    intro m h
    obtain ⟨output, target⟩ := s
    have e := add_one (topk := topk) m (output, target) (h _ (List.mem_cons_self ..))
    simp only [imagenetLoop, e]
    refine (ih { m with values := m.values ++ [(List.range m.maxk).map fun r => [(topk m.maxk output).getD r 0 == target]] } (fun s hs => h s (List.mem_cons_of_mem _ hs))).trans ?_
    simp [AccuracyMeter.maxk]

theorem same_shape (topk : ℕ → List ℚ → List ℕ) (n : ℕ) (s : List ℚ × ℕ) (ss : List (List ℚ × ℕ)) :
    (ss.map fun s => (List.range n).map fun r => [(topk n s.1).getD r 0 == s.2]).any
      (fun d => decide (d.map List.length ≠ ((List.range n).map fun r => [(topk n s.1).getD r 0 == s.2]).map List.length)) = false := by
  rw [List.any_eq_false]
  intro d hd
  obtain ⟨s', -, rfl⟩ := List.mem_map.1 hd
  simp

/-- What the accuracy should be is not what `AccuracyMeter` gives: in `run_experiment`, which adds one sample at a time, only the first sample counts. The reported accuracy is that of the first sample divided by the number of samples,
whatever the model predicts for the others. -/
theorem C104_imagenet_first {topk : ℕ → List ℚ → List ℕ} (htop : Topk topk) {s : List ℚ × ℕ} {ss : List (List ℚ × ℕ)} (h : ∀ x ∈ s :: ss, x.1 ≠ []) :
    ∃ r, imagenet topk (s :: ss) = some r ∧ percent (Sure 1) [s] / (ss.length + 1) ≤ r ∧ r ≤ percent (Possible 1) [s] / (ss.length + 1) := by
  have hm : (⟨[1], []⟩ : AccuracyMeter).maxk = 1 := rfl
  have hrow : ∀ x ∈ s :: ss, 1 ≤ x.1.length := fun x hx => List.length_pos_iff.2 (h x hx)
  have e := imagenetLoop_eq (topk := topk) (s :: ss) ⟨[1], []⟩ (by rw [hm]; exact hrow)
  rw [hm] at e
  have hsh := same_shape topk 1 s ss
  have hc := count_eq htop (le_refl 1) (S := [s]) (fun x hx => hrow x (by simp at hx; simp [hx]))
  have hb := percent_mono (hits_bounds htop (le_refl 1) (S := [s]) (fun x hx => hrow x (by simp at hx; simp [hx])))
  refine ⟨100 * (hits topk 1 1 [s] : ℚ) / (([s] : List (List ℚ × ℕ)).length : ℕ) / (ss.length + 1), ?_, ?_, ?_⟩
  · simp only [imagenet, AccuracyMeter.init, List.cons_ne_nil, if_false, e, AccuracyMeter.value, List.nil_append, List.map_cons, hsh]
    rw [if_neg (by simp), if_neg (by simp)]
    simp only [List.take_succ_cons, List.take_zero, List.length_cons, List.length_map]
    have : ([List.map (fun r => [(topk 1 s.1).getD r 0 == s.2]) (List.range 1)].flatten.flatten.count true) = hits topk 1 1 [s] := by
      rw [hits, ← hc]
      simp [countCorrect]
    rw [this]
    congr 1
    push_cast
    simp only [List.length_nil]
    ring
  · exact div_le_div_of_nonneg_right hb.1 (by positivity)
  · exact div_le_div_of_nonneg_right hb.2 (by positivity)

theorem count_flatten_sum (L : List (List (List Bool))) : L.flatten.flatten.count true = (L.map fun c => c.flatten.count true).sum := by
  induction L with
  | nil => simp
  | cons c L ih => simp [List.flatten_append, List.count_append, ih]

/-- `AccuracyMeter` gives the top-k accuracy of samples added one at a time for the largest `k`, as long as there are at most `k` samples. Missing: more samples, smaller `k`, batches. -/
theorem C104_meter_partial {topk : ℕ → List ℚ → List ℕ} (htop : Topk topk) {ks : List ℕ} {k : ℕ} (hmax : ks.max? = some k) {ss : List (List ℚ × ℕ)} (hne : ss ≠ []) (hlen : ss.length ≤ k)
    (hrows : ∀ s ∈ ss, k ≤ s.1.length) :
    ∃ r, meterOf topk ks ss k = some r ∧ percent (Sure k) ss ≤ r ∧ r ≤ percent (Possible k) ss := by
  have hm := List.max?_eq_some_iff.1 hmax
  have hks : ks ≠ [] := List.ne_nil_of_mem hm.1
  have hmk : (⟨ks, []⟩ : AccuracyMeter).maxk = k := by simp [AccuracyMeter.maxk, hmax]
  have e := imagenetLoop_eq (topk := topk) ss ⟨ks, []⟩ (by rw [hmk]; exact hrows)
  rw [hmk] at e
  refine ⟨_, ?_, percent_mono (hits_bounds htop (le_refl k) hrows)⟩
  simp only [meterOf, AccuracyMeter.init, if_neg hks, e, AccuracyMeter.value, List.nil_append]
  have hcount : ((List.take k (ss.map fun s => (List.range k).map fun r => [(topk k s.1).getD r 0 == s.2])).flatten.flatten.count true) = hits topk k k ss := by
    rw [List.take_of_length_le (by simpa using hlen), count_flatten_sum, List.map_map, hits, countP_eq_sum]
    congr 1
    apply List.map_congr_left
    intro s hs
    have hc := count_eq htop (le_refl k) (S := [s]) (fun x hx => by simp at hx; rw [hx]; exact hrows s hs)
    rw [countP_eq_sum] at hc
    simp only [List.map_cons, List.map_nil, List.sum_cons, List.sum_nil, Nat.add_zero] at hc
    rw [← hc, countCorrect, List.take_of_length_le (by simp)]
    rfl
  cases ss with
  | nil => exact absurd rfl hne
  | cons s ss =>
    have hsh := same_shape topk k s ss
    rw [List.map_cons] at hcount ⊢
    simp only [hsh, if_neg (not_not.2 hm.1), Bool.false_eq_true, if_false]
    rw [hcount]
    congr 1
    simp only [List.length_cons, List.length_map]
    ring

/-! ## Concrete cases -/

/-- A `topk` that sorts. -/
def sortTopk (k : ℕ) (row : List ℚ) : List ℕ := ((List.range row.length).mergeSort fun i j => decide (row.getD j 0 ≤ row.getD i 0)).take k

theorem sortTopk_spec : Topk sortTopk := by
  intro k row hk
  have hp := List.mergeSort_perm (List.range row.length) fun i j => decide (row.getD j 0 ≤ row.getD i 0)
  have hs := List.pairwise_mergeSort (le := fun i j => decide (row.getD j 0 ≤ row.getD i 0)) (fun a b c h1 h2 => by simp only [decide_eq_true_eq] at *; exact h2.trans h1)
    (fun a b => by simpa using le_total _ _) (List.range row.length)
  simp only [decide_eq_true_eq] at hs
  refine ⟨by simp [sortTopk, hk], (hp.nodup_iff.2 List.nodup_range).sublist (List.take_sublist _ _), fun i hi => List.mem_range.1 (hp.mem_iff.1 (List.mem_of_mem_take hi)),
    hs.sublist (List.take_sublist _ _), fun i hi j hj hn => ?_⟩
  have hj' := hp.mem_iff.2 (List.mem_range.2 hj)
  rw [← List.take_append_drop k (List.mergeSort _ _)] at hj' hs
  rcases List.mem_append.1 hj' with h | h
  · exact absurd h hn
  · exact (List.pairwise_append.1 hs).2.2 i hi j h

/-- Two samples, both predicted right: the accuracy is 100%, `run_experiment` reports 50%. -/
theorem C104_imagenet_wrong : ∃ ss : List (List ℚ × ℕ), (∀ s ∈ ss, NoTies s) ∧ percent (Sure 1) ss = 100 ∧ ∀ topk, Topk topk → imagenet topk ss = some 50 := by
  have hp : percent (Possible 1) [(([1, 0] : List ℚ), 0)] = 100 := by decide +kernel
  have hs : percent (Sure 1) [(([1, 0] : List ℚ), 0)] = 100 := by decide +kernel
  refine ⟨[([1, 0], 0), ([1, 0], 0)], by simp [NoTies], by decide +kernel, fun topk htop => ?_⟩
  obtain ⟨r, e, h1, h2⟩ := C104_imagenet_first htop (s := ([1, 0], 0)) (ss := [([1, 0], 0)]) (by simp)
  rw [hs] at h1
  rw [hp] at h2
  norm_num at h1 h2
  rw [e, le_antisymm h2 h1]

/-- With batches of different sizes, as a data loader gives when the number of samples is no multiple of the batch size, `value()` raises. -/
theorem C104_ragged_wrong (topk : ℕ → List ℚ → List ℕ) :
    ∃ m m' : AccuracyMeter, AccuracyMeter.add topk ⟨[1], []⟩ [[1, 0], [1, 0]] [0, 0] = some m ∧ m.add topk [[1, 0]] [0] = some m' ∧ m'.value 1 = none :=
  ⟨_, _, rfl, rfl, rfl⟩

/-- A batch of three samples with scores for six classes. -/
def sampleBatch : List (List ℚ) × List ℕ := ([[6, 5, 4, 3, 2, 1], [6, 5, 4, 3, 2, 1], [6, 5, 4, 3, 2, 1]], [0, 4, 5])

example : accuracy sortTopk sampleBatch.1 sampleBatch.2 [1, 5] = some [100 / 3, 200 / 3] := by
  rw [C104_accuracy_exact sortTopk_spec (by simp) rfl (by simp [sampleBatch]) (by simp [sampleBatch]) (by simp [sampleBatch, NoTies])]
  decide +kernel

example : ∃ res, accuracy sortTopk sampleBatch.1 sampleBatch.2 [1, 5] = some res ∧
    List.Forall₂ (fun k r => percent (Sure k) (sampleBatch.1.zip sampleBatch.2) ≤ r ∧ r ≤ percent (Possible k) (sampleBatch.1.zip sampleBatch.2)) [1, 5] res :=
  C104_accuracy sortTopk_spec (by simp) rfl (by simp [sampleBatch]) (by simp [sampleBatch])

theorem sample_good : GoodBatches [sampleBatch, ([[6, 5, 4, 3, 2, 1]], [0])] := by simp [GoodBatches, sampleBatch]

example : validate sortTopk [sampleBatch, ([[6, 5, 4, 3, 2, 1]], [0])] = some (50, 75) := by
  rw [C104_validate_exact sortTopk_spec sample_good (by simp [allSamples, sampleBatch, NoTies])]
  decide +kernel

example : ∃ top1 top5, validate sortTopk [sampleBatch, ([[6, 5, 4, 3, 2, 1]], [0])] = some (top1, top5) ∧ percent (Sure 1) (allSamples [sampleBatch, ([[6, 5, 4, 3, 2, 1]], [0])]) ≤ top1 := by
  obtain ⟨a, b, e, h, -⟩ := C104_validate sortTopk_spec sample_good
  exact ⟨a, b, e, h.1⟩

example : ∃ r, meterOf sortTopk [1, 2] [([1, 0, 2], 0), ([5, 6, 7], 0)] 2 = some r ∧ percent (Sure 2) [([1, 0, 2], 0), ([5, 6, 7], 0)] ≤ r ∧ percent (Sure 2) [(([1, 0, 2] : List ℚ), 0), ([5, 6, 7], 0)] = 50 := by
  obtain ⟨r, e, h, -⟩ := C104_meter_partial sortTopk_spec (ks := [1, 2]) (k := 2) (ss := [([1, 0, 2], 0), ([5, 6, 7], 0)]) rfl (by simp) (by simp) (by simp)
  exact ⟨r, e, h, by decide +kernel⟩

end CrypTen.Meters
