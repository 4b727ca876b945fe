import Verif.Model.Instructions
/-
internal/instructions/{yamlfile,config,values}.go: comment removal, rendering,
values files.
-/
namespace Yot

/-- yamlfile.go:188-190: one child loses its comments. -/
def noComments (h : Hdr) : Hdr := { h with head := [], line := [], foot := [] }

mutual
/-- yamlfile.go:181-194 `removeCommentsFromNode`; for a nil `Content` there is
nothing to do. -/
def removeComments : Node → Node
  | .mk h cs => .mk h (removeCommentsL cs)
/-- The loop over the children. (yamlfile.go:182-194) -/
def removeCommentsL : List Node → List Node
  | [] => []
  | c :: cs =>
    (match removeComments c with | .mk h ds => .mk (noComments h) ds) :: removeCommentsL cs
end

/-- instructions.go:57-63: on request, for every document of every file. -/
def removeAllComments {O D : Type} (requested : Bool) (ys : List (Entry O D)) : List (Entry O D) :=
  if requested then ys.map (fun y => { y with nodes := y.nodes.map removeComments }) else ys

/-- config.go:120-137, the loop of `encodeNodes` from index `i` on.  The YAML
encoder is external: `emit first node` is what it writes for one document, which
depends on whether it is the encoder's first.  `written` is `fileWritten`. -/
def encodeLoop (emit : Bool → Node → Res Err Str) (style : Nat) : Nat → Bool → List Node → Res Err Str
  | _, _, [] => .ok []
  | i, written, n :: ns =>
    if n.content.isEmpty then encodeLoop emit style (i + 1) written ns
    else
      emit (!written) (setStyle style n) >>= fun t =>
      encodeLoop emit style (i + 1) true ns >>= fun r =>
      .ok ((if i = 0 then c!"---\n" else []) ++ t ++ r)

/-- config.go:103-140 `encodeNodes` with the configured `outputStyle`. -/
def encodeNodes (emit : Bool → Node → Res Err Str) (outputStyle : List Str) (nodes : List Node) : Res Err Str :=
  encodeLoop emit (getStyle (getStyleFromConfig outputStyle)) 0 false nodes

/-- config.go:36-73 `doPostProcessing`, up to where the text goes: nothing is
written for an empty rendering. -/
def rendering (emit : Bool → Node → Res Err Str) (outputStyle : List Str) (nodes : List Node) : Res Err (Option Str) :=
  encodeNodes emit outputStyle nodes >>= fun t => .ok (if t = [] then none else some t)

/-- values.go:13-50 `getValues` on the decoded files (decoding, and the final
conversion of the node to a Go value, are the YAML library's). -/
def getValues (E : Sed) (files : List Node) : Res Err (Option Node) := mergeNodes E files

end Yot
