import Verif.Model.PipelineApi
import Verif.Lemmas.PipeMapPath

/-! # The pipelines at their start -/

universe u v

namespace TreeIter

section General
variable {N : Type u} {V : Type v} [TreeNode N V]

theorem rel_start (n : N) : Track.Rel (Api.start n) [] [(treeOf n).wpaths []] := Track.rel_new n []

theorem labDepth_start (n : N) : LabDepth 0 ((treeOf n).wpaths []) := (wpaths_labPath (treeOf n) []).labDepth

end General

section Binary
variable {N : Type u} {V : Type v} [BinNode N V]

theorem binRel_start (n : N) : Track.BinRel (Api.binStart n) [] [(binTreeOf n).paths []] := Track.binRel_new n []

end Binary

end TreeIter
