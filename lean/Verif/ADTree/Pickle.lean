import Verif.ADTree.Contingency
/-!
# Pickling preserves the representation invariant and the node counts
-/
namespace Mbtk.ADTree

theorem pickleVarys_eq_map (dyn : Bool) (vs : List VaryNode) :
    pickleVarys dyn vs = vs.map (pickleVary dyn) := by
  induction vs with
  | nil => simp [pickleVarys]
  | cons v vs ih => simp [pickleVarys, ih]

theorem pickleADs_eq_map (dyn : Bool) (ads : List (Option ADNode)) :
    pickleADs dyn ads = ads.map (Option.map (pickleAD dyn)) := by
  induction ads with
  | nil => simp [pickleADs]
  | cons o ads ih => cases o <;> simp [pickleADs, ih]

@[simp] theorem pickleAD_value (dyn : Bool) (n : ADNode) : (pickleAD dyn n).value = n.value := by
  cases n; simp [pickleAD, ADNode.value]
@[simp] theorem pickleAD_col (dyn : Bool) (n : ADNode) : (pickleAD dyn n).col = n.col := by
  cases n; simp [pickleAD, ADNode.col]
@[simp] theorem pickleVary_col (dyn : Bool) (v : VaryNode) : (pickleVary dyn v).col = v.col := by
  cases v; simp [pickleVary, VaryNode.col]

theorem map_pickleVary_col (dyn : Bool) (vs : List VaryNode) :
    (vs.map (pickleVary dyn)).map VaryNode.col = vs.map VaryNode.col := by
  rw [List.map_map]; congr 1; funext v; simp

theorem pickle_rep {D : Data} {dyn : Bool} {rows : List Nat} {n : ADNode}
    (h : RepAD D dyn rows n) : RepAD D dyn rows (pickleAD dyn n) := by
  refine RepAD.rec (motive_1 := fun rows n _ => RepAD D dyn rows (pickleAD dyn n))
    (motive_2 := fun rows v _ => RepVary D dyn rows (pickleVary dyn v)) ?_ ?_ h
  · intro rows col value count leaf rs vs h1 h2 h3 h4 h5 h6 h7 h8 h9 h10 ih
    unfold pickleAD
    rw [pickleVarys_eq_map]
    refine .mk rows col value count leaf _ _ h1 h2 h3 ?_ ?_ h6 ?_ ?_ ?_ ?_
    · intro hd
      have : (dyn || leaf) = true := by rcases hd with h | h <;> simp [h]
      rw [this]; simpa using h4 hd
    · intro hl
      have : (dyn || leaf) = true := by simp [hl]
      rw [this]; simpa using h5 hl
    · intro v hv
      obtain ⟨u, hu, rfl⟩ := List.mem_map.1 hv
      exact ih u hu
    · rw [map_pickleVary_col]; exact h8
    · rw [map_pickleVary_col]; exact h9
    · intro hl; rw [h10 hl]; rfl
  · intro rows c mcv ads h1 h2 h3 h4 h5 h6 ih
    unfold pickleVary
    rw [pickleADs_eq_map]
    refine .mk rows c mcv _ h1 h2 h3 (by simpa using h4) ?_ ?_
    · intro i v o hv ho
      rw [List.getElem?_map] at ho
      cases ha : ads[i]? with
      | none => rw [ha] at ho; simp at ho
      | some o' =>
        rw [ha] at ho
        simp at ho
        subst ho
        have := h5 i v o' hv ha
        refine ⟨by rw [← this.1]; simp, ?_⟩
        intro ch hch
        cases o' with
        | none => simp at hch
        | some m =>
          simp at hch; subst hch
          simpa using this.2 m rfl
    · intro i v ch hv ho
      rw [List.getElem?_map] at ho
      cases ha : ads[i]? with
      | none => rw [ha] at ho; simp at ho
      | some o' =>
        rw [ha] at ho
        cases o' with
        | none => simp at ho
        | some m =>
          simp at ho; subst ho
          exact ih i v m hv ha

mutual
theorem pickle_size (w : Nat × Nat) (dyn : Bool) :
    ∀ n : ADNode, sizeAD w (pickleAD dyn n) = sizeAD w n
  | .mk c v n l r vs => by
    simp only [pickleAD, sizeAD]; rw [pickle_sizeVarys w dyn vs]
theorem pickle_sizeVary (w : Nat × Nat) (dyn : Bool) :
    ∀ v : VaryNode, sizeVary w (pickleVary dyn v) = sizeVary w v
  | .mk c vals m ads => by
    simp only [pickleVary, sizeVary]; rw [pickle_sizeADs w dyn ads]
theorem pickle_sizeVarys (w : Nat × Nat) (dyn : Bool) :
    ∀ vs : List VaryNode, sizeVarys w (pickleVarys dyn vs) = sizeVarys w vs
  | [] => by simp [pickleVarys]
  | v :: vs => by
    simp only [pickleVarys, sizeVarys]
    rw [pickle_sizeVary w dyn v, pickle_sizeVarys w dyn vs]
theorem pickle_sizeADs (w : Nat × Nat) (dyn : Bool) :
    ∀ ads : List (Option ADNode), sizeADs w (pickleADs dyn ads) = sizeADs w ads
  | [] => by simp [pickleADs]
  | none :: rest => by
    simp only [pickleADs, sizeADs]; rw [pickle_sizeADs w dyn rest]
  | some n :: rest => by
    simp only [pickleADs, sizeADs]; rw [pickle_size w dyn n, pickle_sizeADs w dyn rest]
end

end Mbtk.ADTree
