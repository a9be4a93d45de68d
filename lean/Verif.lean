import Verif.Model.Text
import Verif.Model.Utils
import Verif.Model.Vlq
import Verif.Model.Mapping
import Verif.Model.Generator
import Verif.Model.SmNode
import Verif.Model.Slm
import Verif.Model.Sources
import Verif.Model.Heap
import Verif.Model.History
import Verif.Model.Tree
import Verif.Tests
import Verif.TestsMore
import Verif.Spec.Text
import Verif.Spec.Edit
import Verif.Spec.History
import Verif.Spec.SourceMap
import Verif.Spec.Generator
import Verif.Spec.Node
import Verif.Spec.Pieces
import Verif.Spec.Js
import Verif.Props.C01
import Verif.Props.C02
import Verif.Props.C03
import Verif.Props.C04
import Verif.Props.C05
import Verif.Props.C06
import Verif.Props.C06Text
import Verif.Props.C07
import Verif.Props.C08
import Verif.Props.C09
import Verif.Props.C10
import Verif.Props.C11
import Verif.Props.C12
import Verif.Props.C13
import Verif.Props.C14
import Verif.Props.C15
import Verif.Props.C17Exact
import Verif.Props.C18
import Verif.Props.C20
import Verif.Props.C21
import Verif.Props.C22
import Verif.Props.C22List
import Verif.Props.C24
import Verif.Props.C25
import Verif.Props.C26
import Verif.Props.C27
import Verif.Props.C28
import Verif.Props.C29
import Verif.Props.C30
import Verif.Props.C32
import Verif.Props.C33
import Verif.Props.C34
import Verif.Props.C35
import Verif.Props.C36
import Verif.Props.C37
import Verif.Props.C38
import Verif.Props.C39
import Verif.Props.C41
import Verif.Props.C42
import Verif.Props.C43
import Verif.Props.C44
import Verif.Props.C45
import Verif.Proofs.Overlap
import Verif.Proofs.Files
import Verif.Proofs.Near
import Verif.Props.C46
import Verif.Props.C47
import Verif.Props.C48
import Verif.Props.C49
import Verif.Props.C50
import Verif.Props.C51
import Verif.Props.C52
import Verif.Proofs.Ghosts
import Verif.Props.C09Exact
import Verif.Proofs.NodeLines
import Verif.Props.C22Objects
import Verif.Props.C53
import Verif.Props.C54
import Verif.Props.C55
import Verif.Model.JsList
import Verif.Proofs.JsList
import Verif.Props.C56
import Verif.Props.C57
import Verif.Props.C22Lines
import Verif.Props.C12Objects
import Verif.Props.C58
import Verif.Props.C58Reads
import Verif.Props.C56Text
import Verif.Props.C59
import Verif.Props.C60
import Verif.Props.C60Lines
import Verif.Model.JsClear
import Verif.Proofs.JsClear
import Verif.Proofs.JsApart
import Verif.Props.C61
import Verif.Props.C61Memory
import Verif.Proofs.JsLabel
import Verif.Props.C62
import Verif.Proofs.SmsMarks
import Verif.Props.C63
import Verif.Props.C09Shown
import Verif.Props.C64
import Verif.Proofs.Mentions
import Verif.Proofs.Sane
import Verif.Props.C65
import Verif.Props.C65Names
import Verif.Proofs.JsGiven
import Verif.Props.C66
import Verif.Props.C67
import Verif.Props.C68
import Verif.Props.C69
import Verif.Props.C70
import Verif.Props.C71
import Verif.Props.C72
import Verif.Props.C73
import Verif.Props.C74
import Verif.Props.C74Edited
import Verif.Spec.Canonical
import Verif.Proofs.Canonical
import Verif.Props.C75
import Verif.Props.C75Least
import Verif.Props.C75All
import Verif.Props.C75Given
import Verif.Props.C73Given
import Verif.Props.C74Given
import Verif.Props.C74GivenEdited
import Verif.Props.C74Names
import Verif.Props.C76
import Verif.Model.Strings
import Verif.Props.C77
import Verif.Props.C78
import Verif.Props.C78Contents
import Verif.Props.C79
import Verif.Props.C80
import Verif.Props.C81
import Verif.Props.C33Any
import Verif.Props.C17Any
import Verif.Props.C60Given
import Verif.Model.JsFree
import Verif.Proofs.JsHeld
import Verif.Proofs.JsFree
import Verif.Props.C82
import Verif.Model.JsEdit
import Verif.Proofs.JsEdit
import Verif.Props.C83
import Verif.Props.C84
import Verif.Props.C84Given
import Verif.Props.C85
import Verif.Props.C86
import Verif.Props.C86Given
import Verif.Props.C87
import Verif.Proofs.Wasm32Any
import Verif.Props.C87Wasm
import Verif.Props.C87Second
import Verif.Props.C88
