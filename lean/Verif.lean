import Verif.Props.C01_Bytes
import Verif.Props.C02_HalfFloat
import Verif.Props.C03_C05_QuarterFloat
import Verif.Props.C06_Trie
import Verif.Props.C07_LruCache
import Verif.Props.C08_TextCodec
import Verif.Props.C09_ReplaceAll
import Verif.Props.C10_C12_Bpe
import Verif.Props.C13_C14_Tokenizer
import Verif.Props.C15_Csv
import Verif.Props.C15_Number
import Verif.Props.C16_LineReader
import Verif.Props.C17_FileSorter
import Verif.Props.C18_C20_Shuffler
import Verif.Props.C19_C21_DataSet
import Verif.Props.C22_C23_OneHot
import Verif.Props.C24_C28_BinaryDataset
import Verif.Props.C26_Text
import Verif.Props.C29_C32_Views
import Verif.Props.C33_C41_Products
import Verif.Props.C34_Inverse
import Verif.Props.C36_C40_Statistics
import Verif.Props.C53_EstimateBias
import Verif.Props.C42_C44_Lexer
import Verif.Props.C45_Parser
import Verif.Props.C46_C83_Grammar
import Verif.Props.C47_C84_Interpreter
import Verif.Props.C48_C50_Columns
import Verif.Props.C50_Sentence
import Verif.Props.C51_C52_Encoders
import Verif.Props.C54_ExitStrategy
import Verif.Props.C55_C58_Graph
import Verif.Props.C61_C63_Training
import Verif.Props.C67_Loss
import Verif.Props.C68_Activation
import Verif.Props.C69_Softmax
import Verif.Props.C90_ActivationLayer
import Verif.Props.C70_Optimizer
import Verif.Props.C91_Backpropagation
import Verif.Props.C92_Batch
import Verif.Props.C92_Joined
import Verif.Props.C93_Convolution
import Verif.Props.C94_Predictions
import Verif.Props.C95_Random
import Verif.Props.C73_C96_NormLayers
import Verif.Props.C72_Names
import Verif.Props.C74_PrettyPrint
import Verif.Props.C64_C65_Hyperband
import Verif.Props.C66_LabelTask
import Verif.Props.C71_C100_TensorStats
import Verif.Props.C59_SaveLoad
import Verif.Props.C101_Decimal
import Verif.Props.C102_SavedFlags
import Verif.Props.C106_Shapes
import Verif.Props.C107_C108_Order
import Verif.Props.C109_LabelNetwork
import Verif.Props.C110_Widths
import Verif.Props.C111_TaskInputs
import Verif.Props.C112_NamedInputs
import Verif.Props.C113_C114_Accuracy
import Verif.Props.C115_C117_Embedding
import Verif.Props.C118_Picture
import Verif.Props.C119_C120_Execute
import Verif.Props.C121_CreateDataset
import Verif.Props.C122_Pixel
import Verif.Props.C123_Failure
import Verif.Props.C124_Materialize
import Verif.Props.C125_Regression
import Verif.Props.C126_Rounding
import Verif.Props.C127_Compression
import Verif.Props.C128_FloatUpdate
import Verif.Props.C129_Rebuild
import Verif.Props.C130_Precision
import Verif.Props.C131_Interrupted
import Verif.Props.C132_SearchNetwork
import Verif.Props.C133_FloatActivation
import Verif.Props.C134_FloatLoss
import Verif.Props.C135_FloatSoftmax
import Verif.Props.C136_FloatAdam
import Verif.Props.C137_FloatMomentum
import Verif.Props.C138_FloatDistance
import Verif.Props.C139_FloatTable
import Verif.Props.C140_QuarterArith
import Verif.Props.C141_Recommend
import Verif.Props.C142_TaskFiles
import Verif.Props.C143_DatasetFiles
import Verif.Props.C144_FloatStatistics
import Verif.Props.C145_FloatColumn
import Verif.Props.C146_FloatNormalization
import Verif.Props.C147_LoadDelimited
import Verif.Props.C148_SearchDraw
import Verif.Props.C149_FloatIndex
import Verif.Props.C150_ConvertTsv
import Verif.Props.C151_ModelName
import Verif.Props.C152_Program
import Verif.Props.C153_Facts
import Verif.Props.C154_GeometricMean
import Verif.Props.C155_VariantText
import Verif.Props.C155_Script
import Verif.Props.C156_Words
import Verif.Props.C157_PrintRow
import Verif.Props.C158_PrintTensor
import Verif.Props.C159_ShowColumn
import Verif.Props.C160_MeanInput
import Verif.Props.Literals
