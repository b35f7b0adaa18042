import Verif.Model.NetPlot
import Verif.Lemmas.Dict
import Verif.Lemmas.Except
import Mathlib.Data.Finset.Card
import Mathlib.Data.String.Basic

/-! Property C151: the nodes of a plotted network are coloured by chemical system (src/rxn_network/network/visualize.py). -/

namespace Verif.Props.NetPlot
open Verif.Py Verif.Model.NetPlot Verif.Lemmas Verif.Lemmas.Dict

variable {σ γ ν : Type} [LinearOrder σ]

theorem unique_spec (l : List σ) : (unique l).Nodup ∧ (unique l).Pairwise (· ≤ ·) ∧ ∀ x, x ∈ unique l ↔ x ∈ l := by
  unfold unique
  refine ⟨(List.perm_insertionSort _ _).nodup_iff.mpr (List.nodup_dedup l), List.pairwise_insertionSort _ _, fun x => ?_⟩
  rw [(List.perm_insertionSort _ _).mem_iff, List.mem_dedup]

/-- Specification: the number of different values below `x`. -/
def rank (l : List σ) (x : σ) : ℕ := (l.toFinset.filter fun y => y < x).card

theorem table_get (l : List σ) (x : σ) (hx : x ∈ l) : dictGet (table l) x = some (rank l x) := by
  obtain ⟨h1, h2, h3⟩ := unique_spec l
  obtain ⟨i, hi⟩ := List.mem_iff_getElem?.mp ((h3 x).mpr hx)
  obtain ⟨hl, hg⟩ := List.getElem?_eq_some_iff.mp hi
  have hkeys : ((unique l).zipIdx.map Prod.fst) = unique l := by simp
  have hd : dictOf ((unique l).zipIdx) = (unique l).zipIdx := by
    have := foldl_dictSet_eq [] (unique l).zipIdx (by simpa using h1)
    simpa [dictOf] using this
  have hget : dictGet (table l) x = some i := by
    unfold table
    rw [hd]
    exact dictGet_eq_some_of_mem _ (by rw [hkeys]; exact h1) _ _ (List.mk_mem_zipIdx_iff_getElem?.mpr hi)
  rw [hget]
  congr 1
  have hset : l.toFinset.filter (fun y => y < x) = ((unique l).take i).toFinset := by
    ext y
    simp only [Finset.mem_filter, List.mem_toFinset, ← h3 y]
    constructor
    · rintro ⟨hy, hlt⟩
      obtain ⟨j, hj⟩ := List.mem_iff_getElem?.mp hy
      obtain ⟨hjl, hjg⟩ := List.getElem?_eq_some_iff.mp hj
      have hji : j < i := by
        by_contra hc
        rcases Nat.lt_or_eq_of_le (not_lt.mp hc) with h | h
        · have := List.pairwise_iff_getElem.mp h2 i j hl hjl h
          rw [hg, hjg] at this
          exact absurd hlt (not_lt.mpr this)
        · subst h
          rw [hg] at hjg
          exact absurd hlt (by rw [hjg]; exact lt_irrefl _)
      exact List.mem_take_iff_getElem.mpr ⟨j, by omega, hjg⟩
    · intro hy
      obtain ⟨j, hj, hjg⟩ := List.mem_take_iff_getElem.mp hy
      refine ⟨List.mem_of_mem_take hy, ?_⟩
      have hjl : j < (unique l).length := by omega
      have hle := List.pairwise_iff_getElem.mp h2 j i hjl hl (by omega)
      rw [hg, hjg] at hle
      refine lt_of_le_of_ne hle fun e => ?_
      have := (List.Nodup.getElem_inj_iff h1 (hi := hjl) (hj := hl)).mp (by rw [hjg, hg, e])
      omega
  unfold rank
  rw [hset, List.toFinset_card_of_nodup (h1.sublist (List.take_sublist _ _)), List.length_take]
  omega

theorem rank_lt (l : List σ) (x y : σ) (hx : x ∈ l) (h : x < y) : rank l x < rank l y := by
  unfold rank
  apply Finset.card_lt_card
  rw [Finset.ssubset_iff_of_subset]
  · exact ⟨x, by simp [hx, h], by simp⟩
  · intro z hz
    simp only [Finset.mem_filter] at hz ⊢
    exact ⟨hz.1, hz.2.trans h⟩

/-- **C151, every node.** Plotting never fails for lack of a colour: every node gets, in order, the palette entry numbered by how many
chemical systems come before its own, from a palette with as many entries as there are chemical systems. -/
theorem C151_colors (cmap : ℕ → ℕ → γ) (chemsys : ν → σ) (nodes : List ν) :
    vertexColors cmap chemsys nodes =
      .ok (nodes.map fun n => cmap (nodes.map chemsys).toFinset.card (rank (nodes.map chemsys) (chemsys n))) := by
  unfold vertexColors
  have hmem : ∀ x, x ∈ (nodes.map chemsys).insertionSort (· ≤ ·) ↔ x ∈ nodes.map chemsys := fun x => (List.perm_insertionSort _ _).mem_iff
  have hfin : ((nodes.map chemsys).insertionSort (· ≤ ·)).toFinset = (nodes.map chemsys).toFinset := by
    ext x; simp only [List.mem_toFinset, hmem]
  have hrank : ∀ x, rank ((nodes.map chemsys).insertionSort (· ≤ ·)) x = rank (nodes.map chemsys) x := by
    intro x; unfold rank; rw [hfin]
  have hlen : (unique ((nodes.map chemsys).insertionSort (· ≤ ·))).length = (nodes.map chemsys).toFinset.card := by
    obtain ⟨h1, -, h3⟩ := unique_spec ((nodes.map chemsys).insertionSort (· ≤ ·))
    rw [← hfin, ← List.toFinset_card_of_nodup h1]
    congr 1
    ext x
    simp only [List.mem_toFinset, h3]
  rw [Exc.mapM_eq_map _ (fun x => cmap (nodes.map chemsys).toFinset.card (rank (nodes.map chemsys) x)), List.map_map]
  · rfl
  · intro x hx
    unfold cmapOut
    rw [table_get _ x ((hmem x).mpr hx), hrank, hlen]

/-- **C151, by chemical system.** With a palette whose entries differ, two nodes have the same colour exactly when they are of the same
chemical system, and only entries of the palette are used. -/
theorem C151_same_color (cmap : ℕ → ℕ → γ) (chemsys : ν → σ) (nodes : List ν)
    (hpal : ∀ n i j, i < n → j < n → cmap n i = cmap n j → i = j) (colors : List γ) (h : vertexColors cmap chemsys nodes = .ok colors) :
    colors.length = nodes.length ∧ ∀ (i j : ℕ) (a b : ν) (ca cb : γ), nodes[i]? = some a → nodes[j]? = some b → colors[i]? = some ca →
      colors[j]? = some cb → (ca = cb ↔ chemsys a = chemsys b) := by
  rw [C151_colors] at h
  cases h
  refine ⟨by simp, ?_⟩
  intro i j a b ca cb ha hb hca hcb
  rw [List.getElem?_map, ha] at hca
  rw [List.getElem?_map, hb] at hcb
  cases hca
  cases hcb
  have hm : ∀ (k : ℕ) (c : ν), nodes[k]? = some c → chemsys c ∈ nodes.map chemsys := fun k c hc =>
    List.mem_map.mpr ⟨c, List.mem_of_getElem? hc, rfl⟩
  have hbound : ∀ x ∈ nodes.map chemsys, rank (nodes.map chemsys) x < (nodes.map chemsys).toFinset.card := by
    intro x hx
    unfold rank
    apply Finset.card_lt_card
    rw [Finset.ssubset_iff_of_subset (Finset.filter_subset _ _)]
    exact ⟨x, by simpa using hx, by simp⟩
  constructor
  · intro h
    have h1 := hpal _ _ _ (hbound _ (hm i a ha)) (hbound _ (hm j b hb)) h
    rcases lt_trichotomy (chemsys a) (chemsys b) with h2 | h2 | h2
    · exact absurd h1 (rank_lt _ _ _ (hm i a ha) h2).ne
    · exact h2
    · exact absurd h1 (rank_lt _ _ _ (hm j b hb) h2).ne'
  · intro h
    simp only [h]

/-- **C151, other systems.** The colour function made for some chemical systems refuses any other one. -/
theorem C151_unknown (cmap : ℕ → ℕ → γ) (domain : List σ) (x : σ) (hx : x ∉ domain) : cmapOut cmap domain x = .error .keyError := by
  unfold cmapOut
  cases hd : dictGet (table domain) x with
  | none => rfl
  | some i =>
    exfalso
    have h := mem_dictOf _ _ (mem_of_dictGet _ _ _ hd)
    rw [List.mk_mem_zipIdx_iff_getElem?] at h
    exact hx (((unique_spec domain).2.2 x).mp (List.mem_of_getElem? h))

/-! Concrete cases: four nodes of three chemical systems (one of them the empty one of the dummy node). -/

example : vertexColors (fun n i => (n, i)) id ["Y-O", "Ba-O", "Y-O", ""] = .ok [(3, 2), (3, 1), (3, 2), (3, 0)] := by decide +kernel
example := C151_same_color (fun n i => (n, i)) id ["Y-O", "Ba-O", "Y-O", ""] (fun _ _ _ _ _ h => (Prod.mk.inj h).2)
  [(3, 2), (3, 1), (3, 2), (3, 0)] (by decide +kernel)
example : cmapOut (fun n i => (n, i)) ["Y-O", "Ba-O"] "O" = .error .keyError := C151_unknown _ _ _ (by decide)

end Verif.Props.NetPlot
