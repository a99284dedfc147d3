import Verif.Lemmas.StoredBuilders
import Verif.Props.Edit

/-!
# Properties of the builders over packed storages: C71
-/

namespace RUSure.Props
open RUSure RUSure.Spec RUSure.Lemmas
variable {M : Type}

/-- C71: given the packed storage of a prototype, the builder of the constraint DAG finds everything it
looks up, and builds the DAG that belongs to the tree. -/
theorem C71_constraint_same (proto : List (Node M)) :
    Stored.constructConstraintDag (pack proto) = some (constructConstraintDag proto) := by
  have hp := placed_pack proto
  have h := (outside_placed (pack proto)).2 proto ((pack proto).preorder.length + 1) (-1) 0 0 0
    (pack proto).root (nesting_lt_fuel proto) hp
  unfold Stored.constructConstraintDag constructConstraintDag constraintEdges
  rw [h, placedL_length hp, seqIndex_root]
  dsimp only
  split <;> simp_all

/-- C71: building the constraint DAG of a packed prototype never fails, and the DAG accepts exactly the
choices of well-formed regions in the tree that was packed. -/
theorem C71_constraint (proto : List (Node M)) :
    ∃ d, Stored.constructConstraintDag (pack proto) = some (.ok d)
      ∧ ∀ α, Accepts d (seqKeys 0 proto) α ↔ WellFormedRegions α proto := by
  obtain ⟨d, hd⟩ := C42_builds proto
  exact ⟨d, by rw [C71_constraint_same, hd], C42_accepts proto d hd⟩

/-- C71: the same for the builder of the edit DAG, which is given two packed storages. -/
theorem C71_edit_same [DecidableEq M] (prm : Params) (proto target : List (Node M)) :
    Stored.constructEditDag prm (pack proto) (pack target)
      = some (constructEditDag prm proto target) := by
  have hp := placed_pack proto
  have ht := placed_pack target
  have h1 := nesting_lt_fuel proto
  have h2 := nesting_lt_fuel target
  have h := (match_placed prm (pack proto) (pack target)).2 proto (pack proto).preorder.length (-1) (-1)
    0 0 0 target (pack proto).root (pack target).root (by omega) (by omega) (by omega) hp ht
  unfold Stored.constructEditDag constructEditDag editEdges Stored.matchIds
  rw [h, placedL_length hp, placedL_length ht, seqIndex_root]
  dsimp only
  split <;> simp_all

/-- C71: building the edit DAG of a packed prototype and a packed target never fails, its complete
paths are exactly the edit scripts of the two trees, and they cost what their edits cost. -/
theorem C71_edit [DecidableEq M] (prm : Params) (proto target : List (Node M)) :
    ∃ d, Stored.constructEditDag prm (pack proto) (pack target) = some (.ok d)
      ∧ (∀ ss, (∃ p, DagSolution d p ∧ scriptOf p = ss) ↔
        ∃ r, (r = none ∨ r = some .high) ∧ Edits prm .advancing .high 0 proto 0 target ss r)
      ∧ ∀ p, DagSolution d p →
        weight Edge.cost p = (((editsOf p).map (editPrice prm proto target)).sum : ℚ) := by
  obtain ⟨d, hd⟩ := C46_builds prm proto target
  exact ⟨d, by rw [C71_edit_same, hd], C46_scripts prm proto target d hd,
    C47_cost prm proto target d hd⟩

/-- The builder over storages does depend on the lookups: a storage whose root names a node that is not
stored makes it fail. -/
example : Stored.constructConstraintDag (M := Nat)
    { pack [.group [.tok [] 0] 0] with groups := [] } = none := by
  rfl

/-- A storage that records another parent of a token gives other edges. -/
example :
    let S := pack [.group [.tok ([] : Text) 0] 0]
    ((Stored.deleteId ⟨1, 1, 1, 1, 1, 1, 1, 1⟩ S none 0 5 .process true ⟨1, .tok, 0⟩).map
        (List.map (·.source))
      = some [.at .process .high (some 0) 0 none 0, .at .process .low (some 0) 0 none 0])
    ∧ ((Stored.deleteId ⟨1, 1, 1, 1, 1, 1, 1, 1⟩ { S with parents := [⟨-1, 0⟩, ⟨-1, 1⟩] } none 0 5
          .process true ⟨1, .tok, 0⟩).map (List.map (·.source))
      = some [.at .process .high none 1 none 0, .at .process .low none 1 none 0]) := by
  exact ⟨rfl, rfl⟩

end RUSure.Props
