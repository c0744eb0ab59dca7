import Verif.Props.C03
import Verif.Props.C01
import Verif.Props.C14
import Verif.Props.C02
import Verif.Props.C07
import Verif.Props.C08
import Verif.Props.C09
import Verif.Props.C16
import Verif.Props.C10
import Verif.Props.C11
import Verif.Props.C12
import Verif.Props.C13
import Verif.Props.C42
import Verif.Props.C17
import Verif.Props.C04
import Verif.Props.C05
import Verif.Props.C06
import Verif.Props.C36
import Verif.Props.C45
import Verif.Props.C18
import Verif.Props.C28
import Verif.Props.C20
import Verif.Props.C22
import Verif.Props.C27
import Verif.Props.C51
import Verif.Props.C52
import Verif.Props.C55
import Verif.Props.C33
import Verif.Props.C34
import Verif.Props.C21
import Verif.Props.C25
import Verif.Props.C26
import Verif.Props.C58
import Verif.Props.C23
import Verif.Props.C37
import Verif.Props.C59
import Verif.Props.C24
import Verif.Props.C60
import Verif.Props.C40
import Verif.Props.C39
import Verif.Props.C61
import Verif.Props.C62
import Verif.Props.C29
import Verif.Props.C30
import Verif.Props.C31
import Verif.Props.C43
import Verif.Props.C41
import Verif.Props.C32
import Verif.Props.C38
import Verif.Props.C63
import Verif.Props.C66
import Verif.Props.C64
import Verif.Props.C65
import Verif.Props.C67
import Verif.Props.C68
import Verif.Props.C69
import Verif.Props.C70
import Verif.Props.C71
import Verif.Props.C72
import Verif.Props.C73
import Verif.Props.C74
import Verif.Proof.SemiVec
import Verif.Props.C75
import Verif.Model.SemiThree
import Verif.Proof.ThreeOrbit
import Verif.Proof.ThreeKeep
import Verif.Proof.ThreeBlock
import Verif.Proof.ThreeBasis
import Verif.Props.C76
import Verif.Proof.ThreeVec
import Verif.Props.C77
import Verif.Model.CheckSymm
import Verif.Spec.SymmetryOps
import Verif.Proof.CheckSymm
import Verif.Proof.CheckSymmMoves
import Verif.Proof.CheckSymmExact
import Verif.Props.C78
import Verif.Model.Floquet
import Verif.Spec.Floquet
import Verif.Proof.Floquet
import Verif.Props.C79
import Verif.Model.Misc
import Verif.Spec.Misc
import Verif.Props.C80
import Verif.Model.ObsVsTime
import Verif.Props.C83
import Verif.Model.EntWrapper
import Verif.Props.C84
import Verif.Spec.ChainLabels
import Verif.Model.ChainInit
import Verif.Props.C85
import Verif.Props.C86
import Verif.Props.C88
import Verif.Props.C89
import Verif.Props.C90
import Verif.Props.C91
import Verif.Props.C92
import Verif.Props.C93
import Verif.Props.C94
import Verif.Props.C96
import Verif.Props.C97
import Verif.Props.C98
import Verif.Props.C99
import Verif.Props.C100
import Verif.Props.C101
import Verif.Props.C102
import Verif.Props.C103
import Verif.Props.C104
import Verif.Props.C105
import Verif.Props.C106
import Verif.Props.C107
import Verif.Props.C108
import Verif.Props.C109
import Verif.Props.C110
import Verif.Props.C78Spinful
import Verif.Props.C111
import Verif.Props.C112
import Verif.Props.C113
import Verif.Props.C114
import Verif.Props.C115
import Verif.Props.C116
import Verif.Props.C116Exchanges
