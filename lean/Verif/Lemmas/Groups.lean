import Verif.Lemmas.LayerLeaves
import Verif.Props.Linkage

/-!
# Large components of the spanning tree and the leaves of the condensed tree
-/

namespace Verif
variable {W K S L : Type*}

section
variable [LinearOrder S] {H : Hier W S} {wt : ℕ → S} {mcs : S}

theorem count_sub (hh : CondHyp H wt mcs) {v x : ℕ} (h : H.Sub v x) : H.count wt x ≤ H.count wt v := by
  induction h with
  | refl => exact le_rfl
  | tail _ hk ih => exact (hh.mono _ _ hk).trans ih

theorem split_kids {i a b : ℕ} (ha : H.IsKid (H.n + i) a) (hb : H.IsKid (H.n + i) b) (hab : a ≠ b) (hca : mcs ≤ H.count wt a) (hcb : mcs ≤ H.count wt b) :
    i ∈ H.splitRows wt mcs := by
  have hm := ha.2.1
  have h1 := ha.2.2
  have h2 := hb.2.2
  rw [show H.n + i - H.n = i by omega] at h1 h2
  refine mem_splitRows.2 ⟨by omega, ?_⟩
  rcases h1 with rfl | rfl <;> rcases h2 with rfl | rfl
  · exact absurd rfl hab
  · exact ⟨hca, hcb⟩
  · exact ⟨hcb, hca⟩
  · exact absurd rfl hab

/-- Two large parts that do not contain one another are joined by a large merge. -/
theorem split_of_two (hh : CondHyp H wt mcs) {v v' : ℕ} (hn : ¬ H.Sub v v') (hn' : ¬ H.Sub v' v) (hc : mcs ≤ H.count wt v) (hc' : mcs ≤ H.count wt v') :
    ∀ u, H.Sub u v → H.Sub u v' → ∃ j ∈ H.splitRows wt mcs, H.Sub u (H.n + j) := by
  intro u
  induction u using Nat.strong_induction_on with
  | _ u ih =>
    intro hs hs'
    rcases hs.cases_head with rfl | ⟨a, ha, hav⟩
    · exact absurd hs' hn
    rcases hs'.cases_head with rfl | ⟨b, hb, hbv⟩
    · exact absurd hs hn'
    by_cases hab : a = b
    · subst hab
      obtain ⟨j, hj, h1⟩ := ih a (ha.lt hh.valid) hav hbv
      exact ⟨j, hj, (Hier.Sub.kid ha).trans h1⟩
    · obtain ⟨i, rfl⟩ := Nat.exists_eq_add_of_le ha.1
      exact ⟨i, split_kids ha hb hab (hc.trans (count_sub hh hav)) (hc'.trans (count_sub hh hbv)), Hier.Sub.refl _⟩

theorem leafNode_up (hh : CondHyp H wt mcs) : ∀ d v, v + d = H.root → mcs ≤ H.count wt v → (∀ j ∈ H.splitRows wt mcs, ¬ H.Sub v (H.n + j)) →
    ∃ u, H.LeafNode wt mcs u ∧ u ≤ H.root ∧ H.Sub u v := by
  intro d
  induction d using Nat.strong_induction_on with
  | _ d ih =>
    intro v hd hc hno
    rcases Nat.eq_zero_or_pos d with rfl | hpos
    · exact ⟨v, ⟨.inl (by omega), hno⟩, by omega, Hier.Sub.refl _⟩
    have hvR : v < H.root := by omega
    obtain ⟨p, hp⟩ := Hier.exists_parent hh.valid hvR
    have hre := H.root_eq
    obtain ⟨i, rfl⟩ := Nat.exists_eq_add_of_le hp.1
    by_cases hi : i ∈ H.splitRows wt mcs
    · exact ⟨v, ⟨.inr ⟨i, hi, hp⟩, hno⟩, by omega, Hier.Sub.refl _⟩
    have hlt := hp.lt hh.valid
    have hpR := hp.2.1
    obtain ⟨u, h1, h2, h3⟩ := ih (H.root - (H.n + i)) (by omega) (H.n + i) (by omega) (hc.trans (hh.mono _ _ hp)) fun j hj hs => by
      rcases hs.cases_head with h | ⟨b, hb, hbj⟩
      · exact hi (by rwa [show i = j by omega])
      · by_cases hbv : b = v
        · subst hbv; exact hno j hj hbj
        · obtain ⟨hja, _, kl, _⟩ := splitRows_alive hh hj
          have hcj : mcs ≤ H.count wt (H.n + j) := ((mem_splitRows.1 hj).2.1).trans (hh.mono _ _ kl)
          exact hi (split_kids hb hp hbv (hcj.trans (count_sub hh hbj)) hc)
    exact ⟨u, h1, h2, h3.trans (Hier.Sub.kid hp)⟩

/-- Every large part contains a leaf or is contained in one. -/
theorem exists_leafNode (hh : CondHyp H wt mcs) {v : ℕ} (hv : v ≤ H.root) (hc : mcs ≤ H.count wt v) :
    ∃ u, H.LeafNode wt mcs u ∧ u ≤ H.root ∧ (H.Sub v u ∨ H.Sub u v) := by
  classical
  have hre := H.root_eq
  by_cases hex : ∃ j, j ∈ H.splitRows wt mcs ∧ H.Sub v (H.n + j)
  · obtain ⟨h1, h2⟩ := Nat.find_spec hex
    set j := Nat.find hex
    obtain ⟨_, _, kl, _⟩ := splitRows_alive hh h1
    have hlt := kl.lt hh.valid
    have hm := (mem_splitRows.1 h1).1
    refine ⟨H.l j, ⟨.inr ⟨j, h1, kl⟩, fun j' hj' hs => ?_⟩, by omega, .inl (h2.trans (Hier.Sub.kid kl))⟩
    have hle := hs.le hh.valid
    exact Nat.find_min hex (show j' < j by omega) ⟨hj', (h2.trans (Hier.Sub.kid kl)).trans hs⟩
  · push Not at hex
    obtain ⟨u, h1, h2, h3⟩ := leafNode_up hh (H.root - v) v (by omega) hc hex
    exact ⟨u, h1, h2, .inr h3⟩

end

/-- A component of the first `m` edges with more than one sample is a node of the linkage table. -/
theorem link_node [LinearOrder W] [AddCommMonoid S] [Inhabited W] [Inhabited S] {n : ℕ} (hn : 0 < n) (wt : ℕ → S) {es : List (Edge W)} (ht : SpanningTree n es)
    (hs : es.Pairwise fun a b => a.w ≤ b.w) {m x y : ℕ} (hx : x < n) (hxy : x ≠ y) (hc : Conn (es.take m) x y) :
    ∃ i, i < m ∧ i < es.length ∧ ∀ z, z < n → ((Hier.ofRows (mstToLinkage wt es)).Sub (n + i) z ↔ Conn (es.take m) x z) := by
  obtain ⟨hden, -, -, hnode⟩ := C12_linkage_is_dendrogram n hn wt es ht hs
  have hHn := hden.hier_n
  induction m generalizing y with
  | zero =>
    rw [List.take_zero] at hc
    rcases hc.cases_head with h | ⟨z, ⟨e, he, _⟩, _⟩
    · exact absurd h hxy
    · simp at he
  | succ m ih =>
    by_cases hm : m < es.length
    · have hget : es[m]? = some es[m] := List.getElem?_eq_getElem hm
      by_cases hin : Conn (es.take (m + 1)) x es[m].u
      · refine ⟨m, by omega, hm, fun z hz => ?_⟩
        have := hnode m _ hget z hz
        rw [below_iff_sub hHn] at this
        refine (and_iff_right hz).symm.trans (this.trans ⟨fun h => hin.trans h.symm, fun h => h.symm.trans hin⟩)
      · have htake : es.take (m + 1) = es.take m ++ [es[m]] := (List.take_append_getElem hm).symm
        have hsame : ∀ z, Conn (es.take (m + 1)) x z ↔ Conn (es.take m) x z := by
          refine fun z => ⟨fun h => ?_, fun h => h.mono fun e he => by rw [htake]; exact List.mem_append_left _ he⟩
          induction h with
          | refl => exact Conn.refl _ _
          | @tail b c hb hs ih =>
            refine ih.trans ?_
            obtain ⟨e, he, hends⟩ := hs
            rw [htake, List.mem_append, List.mem_singleton] at he
            rcases he with he | rfl
            · exact Relation.ReflTransGen.single ⟨e, he, hends⟩
            · exfalso
              rcases hends with ⟨rfl, rfl⟩ | ⟨rfl, rfl⟩
              · exact hin hb
              · refine hin (Relation.ReflTransGen.tail hb ⟨es[m], ?_, .inr ⟨rfl, rfl⟩⟩)
                rw [htake]; exact List.mem_append_right _ (List.mem_singleton.2 rfl)
        obtain ⟨i, h1, h2, h3⟩ := ih hxy ((hsame y).1 hc)
        exact ⟨i, by omega, h2, fun z hz => (h3 z hz).trans (hsame z).symm⟩
    · rw [List.take_of_length_le (by omega)] at hc ⊢
      rw [List.take_of_length_le (by omega)] at ih
      obtain ⟨i, h1, h2, h3⟩ := ih hxy hc
      exact ⟨i, by omega, h2, h3⟩

section
variable [AddCommMonoid S] [LinearOrder S] [IsOrderedAddMonoid S] [One S] [LinearOrder W] [Inhabited W] [Inhabited S]

open Classical in
/-- The samples that the first `m` edges connect with `x` weigh at least `mcs`. -/
def BigComp (n : ℕ) (wt : ℕ → S) (mcs : S) (es : List (Edge W)) (m x : ℕ) : Prop :=
  mcs ≤ ∑ y ∈ (Finset.range n).filter fun y => Conn (es.take m) x y, wt y

omit [IsOrderedAddMonoid S] [One S] in
theorem group_node {n : ℕ} (hn : 2 ≤ n) {wt : ℕ → S} {mcs : S} (hl : ∀ x, x < n → wt x < mcs)
    {es : List (Edge W)} (ht : SpanningTree n es) (hs : es.Pairwise fun a b => a.w ≤ b.w) {m x : ℕ} (hx : x < n) (hbig : BigComp n wt mcs es m x) :
    ∃ i, i < m ∧ i < es.length ∧ mcs ≤ (Hier.ofRows (mstToLinkage wt es)).count wt (n + i) ∧
      ∀ z, z < n → ((Hier.ofRows (mstToLinkage wt es)).Sub (n + i) z ↔ Conn (es.take m) x z) := by
  classical
  obtain ⟨hden, hd, -, -⟩ := C12_linkage_is_dendrogram n (by omega) wt es ht hs
  have hrl : (mstToLinkage wt es).length = es.length := by
    have := congrArg List.length hd; simpa using this
  have hHn := hden.hier_n
  obtain ⟨y, hyx, hy⟩ : ∃ y, x ≠ y ∧ Conn (es.take m) x y := by
    by_contra hno
    push Not at hno
    have : ((Finset.range n).filter fun y => Conn (es.take m) x y) = {x} := by
      ext y
      rw [Finset.mem_filter, Finset.mem_range, Finset.mem_singleton]
      exact ⟨fun h => by_contra fun hne => hno y (Ne.symm hne) h.2, fun h => ⟨h ▸ hx, h ▸ Conn.refl _ _⟩⟩
    unfold BigComp at hbig
    rw [show ((Finset.range n).filter fun y => Conn (es.take m) x y) = {x} from this, Finset.sum_singleton] at hbig
    exact absurd hbig (not_le.2 (hl x hx))
  obtain ⟨i, h1, h2, h3⟩ := link_node (by omega) wt ht hs hx hyx hy
  refine ⟨i, h1, h2, ?_, h3⟩
  have hre := (Hier.ofRows (mstToLinkage wt es)).root_eq
  have hm : (Hier.ofRows (mstToLinkage wt es)).m = es.length := hrl
  rw [hden.count_eq (by omega)]
  refine hbig.trans_eq (Finset.sum_congr (Finset.filter_congr fun z hz => ?_) fun _ _ => rfl)
  exact (h3 z (Finset.mem_range.1 hz)).symm

open Classical in
/-- Large components and the condensed tree.  Each contains a childless cluster or is contained in one, and is nested with every cluster above it; its
samples leave the condensed tree at one of its edges; two different ones force a split, and no childless cluster meets both. -/
theorem tree_groups {n : ℕ} (hn : 2 ≤ n) {wt : ℕ → S} {mcs : S} (h0 : ∀ x, x < n → 0 ≤ wt x) (hl : ∀ x, x < n → wt x < mcs)
    {es : List (Edge W)} (ht : SpanningTree n es) (hs : es.Pairwise fun a b => a.w ≤ b.w) (lam : W → L) :
    ∃ k, CondTree n k (condenseTree (Hier.ofRows (mstToLinkage wt es)) wt mcs none lam) ∧ 
      (∀ m x, x < n → BigComp n wt mcs es m x → ∃ c, n ≤ c ∧ c < n + k ∧ Childless n (condenseTree (Hier.ofRows (mstToLinkage wt es)) wt mcs none lam) c ∧
        (∃ y, y < n ∧ CDesc (condenseTree (Hier.ofRows (mstToLinkage wt es)) wt mcs none lam) c y) ∧
        ∀ s, n ≤ s → s < n + k → CDesc (condenseTree (Hier.ofRows (mstToLinkage wt es)) wt mcs none lam) s c →
          (∀ y, y < n → CDesc (condenseTree (Hier.ofRows (mstToLinkage wt es)) wt mcs none lam) s y → Conn (es.take m) x y) ∨
          (∀ y, y < n → Conn (es.take m) x y → CDesc (condenseTree (Hier.ofRows (mstToLinkage wt es)) wt mcs none lam) s y)) ∧
      (∀ m x, x < n → BigComp n wt mcs es m x → ∀ row ∈ condenseTree (Hier.ofRows (mstToLinkage wt es)) wt mcs none lam, row.child < n →
        Conn (es.take m) x row.child → ∃ e ∈ es.take m, row.lam = lam e.w) ∧
      ∀ m x x', x < n → x' < n → BigComp n wt mcs es m x → BigComp n wt mcs es m x' → ¬ Conn (es.take m) x x' →
        1 < k ∧ ∀ c, n ≤ c → c < n + k → Childless n (condenseTree (Hier.ofRows (mstToLinkage wt es)) wt mcs none lam) c →
          ∀ y z, y < n → z < n → CDesc (condenseTree (Hier.ofRows (mstToLinkage wt es)) wt mcs none lam) c y →
            CDesc (condenseTree (Hier.ofRows (mstToLinkage wt es)) wt mcs none lam) c z → Conn (es.take m) x y → ¬ Conn (es.take m) x' z := by
  obtain ⟨hden, hd, -, -⟩ := C12_linkage_is_dendrogram n (by omega) wt es ht hs
  have hrl : (mstToLinkage wt es).length = es.length := by
    have := congrArg List.length hd; simpa using this
  have hlen := ht.length (by omega)
  have hHn := hden.hier_n
  have hre := (Hier.ofRows (mstToLinkage wt es)).root_eq
  have hmm : (Hier.ofRows (mstToLinkage wt es)).m = es.length := hrl
  have hh := hden.condHyp h0 hl
  obtain ⟨k, relabel, top, hr⟩ := condense_res (mx := none) hh (by omega) lam
  have hv := hh.valid
  have hdEs : ∀ i e, es[i]? = some e → (Hier.ofRows (mstToLinkage wt es)).d i = e.w := by
    intro i e hi
    have hil := (List.getElem?_eq_some_iff.1 hi).1
    have hg : (mstToLinkage wt es)[i]? = some (mstToLinkage wt es)[i] := List.getElem?_eq_getElem (by omega)
    rw [Hier.ofRows_d hg]
    have := congrArg (fun l => l[i]?) hd
    simp only [List.getElem?_map] at this
    rw [hg, hi] at this
    simpa using this
  set H := Hier.ofRows (mstToLinkage wt es) with hH
  set T := condenseTree H wt mcs none lam with hT
  refine ⟨k, hHn ▸ hr.condTree, fun m x hx hbig => ?_, fun m x hx hbig row hrow hc hcon => ?_, fun m x x' hx hx' hbig hbig' hno => ?_⟩
  · obtain ⟨i, h1, h2, h3, h4⟩ := group_node hn hl ht hs hx hbig
    obtain ⟨u, hu, huR, hcmp⟩ := exists_leafNode hh (v := n + i) (by omega) h3
    obtain ⟨c, g1, g2, g3, rfl⟩ := hr.leaf_of_node hh hu
    rw [hHn] at g1 g2 g3
    obtain ⟨row, hrow, hp⟩ := hr.full hh (c := c) (by omega) (by omega)
    refine ⟨c, g1, g2, g3, ⟨row.child, g3 row hrow hp, .single ⟨row, hrow, hp, rfl⟩⟩, fun s hs1 hs2 hsc => ?_⟩
    have hsub := (hr.desc_iff hh (c := s) (b := c) (by omega) (by omega) (by omega) (by omega)).1 hsc
    have hcmp2 : H.Sub (n + i) (top s) ∨ H.Sub (top s) (n + i) := by
      rcases hcmp with h | h
      · exact h.comparable hv hsub
      · exact .inr (hsub.trans h)
    rcases hcmp2 with h | h
    · left
      intro y hy hd
      rw [hr.below_iff hh (by omega) (by omega) (by omega)] at hd
      exact (h4 y hy).1 (h.trans hd)
    · right
      intro y hy hd
      rw [hr.below_iff hh (by omega) (by omega) (by omega)]
      exact h.trans ((h4 y hy).2 hd)
  · obtain ⟨i, h1, h2, h3, h4⟩ := group_node hn hl ht hs hx hbig
    obtain ⟨v, ⟨hva, a, hka, hna, hsa⟩, _, hlam, _⟩ := hr.rows_pt row hrow (by omega)
    have hal : H.Alive wt mcs (n + i) := ⟨by omega, by omega, .inr h3⟩
    have hsub := (h4 _ hc).2 hcon
    have hsv : H.Sub (n + i) v := by
      rcases hsub.comparable hv hsa with h | h
      · rcases h.cases_tail with h' | ⟨w, hw, hwk⟩
        · exact absurd (h' ▸ hal) hna
        · rw [hka.unique hv hwk]; exact hw
      · exact absurd (alive_up hh hal h (by have := hka.lt hv; have := hva.2.1; omega)) hna
    have hle := hsv.le hv
    have hvn := hva.1
    obtain ⟨j, rfl⟩ := Nat.exists_eq_add_of_le hvn
    have hj : j < es.length := by omega
    refine ⟨es[j], List.mem_iff_getElem?.2 ⟨j, ?_⟩, ?_⟩
    · rw [List.getElem?_take, if_pos (by omega)]; exact List.getElem?_eq_getElem hj
    · rw [hlam, show H.n + j - H.n = j by omega, hdEs j _ (List.getElem?_eq_getElem hj)]
  · obtain ⟨i, h1, h2, h3, h4⟩ := group_node hn hl ht hs hx hbig
    obtain ⟨i', h1', h2', h3', h4'⟩ := group_node hn hl ht hs hx' hbig'
    have e1 : ¬ H.Sub (n + i) (n + i') := fun h => hno ((h4 x' hx').1 (h.trans ((h4' x' hx').2 (Conn.refl _ _))))
    have e2 : ¬ H.Sub (n + i') (n + i) := fun h => hno ((h4' x hx).1 (h.trans ((h4 x hx).2 (Conn.refl _ _)))).symm
    have key := split_of_two hh e1 e2 h3 h3'
    refine ⟨?_, fun c hc1 hc2 hc3 y z hy hz hcy hcz hxy hxz => ?_⟩
    · obtain ⟨j, hj, _⟩ := key H.root (Hier.sub_root hv (by omega)) (Hier.sub_root hv (by omega))
      have := hr.cluster_ids hh
      have hm : relabel (H.l j) ∈ Finset.Ico (H.n + 1) (H.n + k) := by
        rw [this]; exact Finset.mem_union_left _ (Finset.mem_image.2 ⟨j, hj, rfl⟩)
      rw [Finset.mem_Ico] at hm
      omega
    · rw [hr.below_iff hh (by omega) (by omega) (by omega)] at hcy hcz
      have hleaf := hr.leafNode hh (c := c) (by omega) (by omega) (by rw [hHn]; exact hc3)
      have sy := (h4 y hy).2 hxy
      have sz := (h4' z hz).2 hxz
      have d1 : H.Sub (top c) (n + i) := by
        rcases hcy.comparable hv sy with h | h
        · exact h
        · exact absurd (((h4 z hz).1 (h.trans hcz)).trans hxz.symm) hno
      have d2 : H.Sub (top c) (n + i') := by
        rcases hcz.comparable hv sz with h | h
        · exact h
        · exact absurd (hxy.trans ((h4' y hy).1 (h.trans hcy)).symm) hno
      obtain ⟨j, hj, hs⟩ := key (top c) d1 d2
      exact hleaf.2 j hj hs

end
end Verif
